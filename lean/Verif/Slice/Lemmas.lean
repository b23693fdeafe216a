import Verif.Slice.Spec

namespace Kratos.Slice

theorem u32_eq {n : Nat} (h : n < 2 ^ 32) : u32 n = n := Nat.mod_eq_of_lt h

@[simp] theorem prod_nil : prod [] = 1 := rfl
@[simp] theorem prod_cons (d ds) : prod (d :: ds) = d * prod ds := rfl

theorem prod_pos : ∀ {ds : List Nat}, (∀ d ∈ ds, 1 ≤ d) → 1 ≤ prod ds
  | [], _ => Nat.le_refl _
  | d :: ds, h => Nat.mul_le_mul (h d (by simp)) (prod_pos fun x hx => h x (by simp [hx]))

theorem foldl_mul32 : ∀ (ds : List Nat) (w : Nat), (∀ d ∈ ds, 1 ≤ d) → prod ds * w < 2 ^ 32 →
    ds.foldl mul32 w = prod ds * w
  | [], w, _, _ => by simp
  | d :: ds, w, hp, h => by
      have h1 : prod ds * (w * d) = d * prod ds * w := by ac_rfl
      have hpp := prod_pos (ds := ds) (fun x hx => hp x (by simp [hx]))
      have hwd : w * d < 2 ^ 32 := by
        have : 1 * (w * d) ≤ prod ds * (w * d) := Nat.mul_le_mul_right _ hpp
        rw [prod_cons, ← h1] at h
        omega
      rw [List.foldl_cons, mul32, u32_eq hwd, foldl_mul32 ds _ (fun x hx => hp x (by simp [hx])) (by rw [h1]; exact h)]
      exact h1

theorem foldr_mul32 : ∀ (ds : List Nat), (∀ d ∈ ds, 1 ≤ d) → prod ds < 2 ^ 32 →
    ds.foldr mul32 1 = prod ds
  | [], _, _ => rfl
  | d :: ds, hp, h => by
      have hd := hp d (by simp)
      have : 1 * prod ds ≤ d * prod ds := Nat.mul_le_mul_right _ hd
      rw [prod_cons] at h
      rw [List.foldr_cons, foldr_mul32 ds (fun x hx => hp x (by simp [hx])) (by omega), mul32, u32_eq h, prod_cons]

/-- The object `i` stands for the region `g` of the variable `r`. -/
structure Rel (r : Root) (i : Info) (g : Region) : Prop where
  vw : i.vw = g.bits
  low : i.low = g.off
  high : i.high = g.off + g.width - 1
  inside : g.off + g.width ≤ prod r.size * r.w
  pos : ∀ d ∈ g.dims, 1 ≤ d
  bpos : 1 ≤ g.bits
  shape : i.size = if g.dims = [] then [1] else g.dims
  decr : i.decr = r.size.length - i.size.length
  len : i.size.length ≤ r.size.length
  root : i.pdecr = none → i = rootInfo r ∧ g = r.region
  slice : ∀ q, i.pdecr = some q → i.explicit = false ∧
    (g.dims = [1] → r.size.getLast? = some 1 ∧ 1 < r.size.length ∧ q ≠ i.decr) ∧
    (g.dims = [] → r.size.length = 1 ∨ r.size.getLast? ≠ some 1 ∨ q = i.decr) ∧
    (g.dims ≠ [] → r.size.getLast? = some 1 → g.dims.getLast? = some 1) ∧
    (2 ≤ g.dims.length → g.dims.getLast? = r.size.getLast?)

theorem region_width (r : Root) : r.region.width = prod r.size * r.w := by
  unfold Root.region Region.width
  split
  · rename_i h; simp [h.1]
  · rfl

theorem rel_root {r : Root} (h : r.Ok) : Rel r (rootInfo r) r.region := by
  have hp := prod_pos h.dims
  refine ⟨rfl, rfl, ?_, ?_, ?_, h.w, ?_, ?_, Nat.le_refl _, fun _ => ⟨rfl, rfl⟩, ?_⟩
  · rw [region_width]
    simp [rootInfo, Root.region, foldl_mul32 _ _ h.dims h.small]
  · rw [region_width]; simp [Root.region]
  · intro d hd
    unfold Root.region at hd
    dsimp only at hd
    split at hd
    · simp at hd
    · exact h.dims d hd
  · unfold Root.region rootInfo
    dsimp only
    by_cases hs : r.size = [1] ∧ r.explicit = false
    · simp [hs.1, hs.2]
    · rw [if_neg hs, if_neg h.ne]
  · simp [rootInfo]
  · intro q hq; cases hq

theorem width_pos {g : Region} (hp : ∀ d ∈ g.dims, 1 ≤ d) (hb : 1 ≤ g.bits) : 1 ≤ g.width :=
  Nat.mul_le_mul (prod_pos hp) hb

theorem Rel.width {r i g} (ok : r.Ok) (h : Rel r i g) : width i = g.width := by
  unfold Slice.width Region.width
  have hs := h.inside
  have hsm := ok.small
  unfold Region.width at hs
  rw [foldl_mul32, h.vw, h.shape]
  · split
    · rename_i he; simp [he]
    · rfl
  · rw [h.shape]
    split
    · simp
    · exact h.pos
  · rw [h.vw, h.shape]
    split
    · rename_i he; simp [he] at hs; simp; omega
    · omega

/-- One selection that the specification accepts. -/
theorem rel_step {r i g h l g'} (ok : r.Ok) (R : Rel r i g) (hs : g.sel h l = some g')
    (hr : h ≠ l → g.dims.length ≤ 1) : ∃ i', select r i h l = .ok i' ∧ Rel r i' g' := by
  have hsm := ok.small
  have hwp := width_pos R.pos R.bpos
  unfold Region.sel at hs
  split at hs
  · cases hs
  rename_i hlh
  have hlh : l ≤ h := by omega
  have hwid := R.width ok
  cases hd : g.dims with
  | nil =>
    -- bits of an element
    simp only [hd] at hs
    split at hs
    · rename_i hb
      cases hs
      have hsz : i.size = [1] := by rw [R.shape, if_pos hd]
      have hgw : g.width = g.bits := by simp [Region.width, hd]
      have hexp : i.explicit = false := by
        cases hp : i.pdecr with
        | none =>
          obtain ⟨rfl, hg⟩ := R.root hp
          rw [hg] at hd
          unfold Root.region at hd
          simp only at hd
          split at hd
          · rename_i hc; exact hc.2
          · exact absurd hd ok.ne
        | some q => exact (R.slice q hp).1
      -- not a dropped dimension
      have hnd : droppedDim r i h l = false := by
        unfold droppedDim
        cases hp : i.pdecr with
        | none =>
          obtain ⟨hi, hg⟩ := R.root hp
          have : r.size = [1] := by rw [hi] at hsz; exact hsz
          simp [this]
        | some q =>
          have := (R.slice q hp).2.2.1 hd
          cases hl : (l == 0 && h == 0) with
          | false => simp
          | true =>
            simp only [Bool.and_eq_true, beq_iff_eq] at hl
            simp only [hl.1, hl.2, and_self, if_true]
            rcases this with h1 | h1 | h1
            · simp [h1]
            · simp [h1]
            · simp [h1]
      refine ⟨{ vw := h - l + 1, size := [1], low := g.off + l, high := g.off + h, explicit := false,
                decr := i.decr, pdecr := some i.decr }, ?_, ?_⟩
      · have h1 : ¬ (l > h) := by omega
        have h2 : ¬ (h ≥ Slice.width i) := by rw [hwid, hgw]; omega
        unfold select
        rw [if_neg h1]
        simp only [hsz, and_self, if_true]
        rw [if_neg h2]
        unfold mkSlice
        have hin := R.inside
        rw [hgw] at hin
        have e1 : u32 (h - l + 1) = h - l + 1 := u32_eq (by omega)
        have e2 : u32 (l + g.off) = g.off + l := by rw [u32_eq (by omega)]; omega
        have e3 : u32 (h + 1 + g.off) - 1 = g.off + h := by rw [u32_eq (by omega)]; omega
        simp only [hsz, hnd, beq_self_eq_true, hexp, Bool.and_false, Bool.false_eq_true, if_false, Bool.not_false,
          Bool.and_true, if_true, Res.ok_bind, List.length_cons, List.length_nil, Nat.sub_self, Nat.add_zero, R.low, e1, e2, e3]
        split
        · rename_i hp
          have hg := (R.root hp).2
          have : g.off = 0 := by rw [hg]; rfl
          simp [this]
        · rfl
      · have hin := R.inside
        rw [hgw] at hin
        refine ⟨rfl, rfl, ?_, ?_, ?_, ?_, ?_, ?_, ?_, ?_, ?_⟩
        · simp [Region.width]; omega
        · simp [Region.width]; omega
        · simp
        · simp
        · simp
        · rw [R.decr, hsz]
        · have := R.len; rw [hsz] at this; exact this
        · intro hq; cases hq
        · intro q hq; cases hq
          exact ⟨rfl, by simp, fun _ => Or.inr (Or.inr rfl), by simp, by simp⟩
    · cases hs
  | cons d ds =>
    simp only [hd] at hs
    split at hs
    · rename_i hlt
      cases hs
      have hsz : i.size = d :: ds := by rw [R.shape, hd]; simp
      have hdp : ∀ x ∈ ds, 1 ≤ x := fun x hx => R.pos x (by simp [hd, hx])
      have hin := R.inside
      have hgw : g.width = d * prod ds * g.bits := by simp [Region.width, hd]
      have hpd := prod_pos hdp
      have hbp := R.bpos
      -- the size of one element
      have hn1 : 1 ≤ prod ds * g.bits := Nat.mul_le_mul hpd hbp
      have hgw' : g.width = d * (prod ds * g.bits) := by rw [hgw, Nat.mul_assoc]
      have hfit : (h + 1) * (prod ds * g.bits) ≤ g.width := by
        rw [hgw']; exact Nat.mul_le_mul_right _ (by omega)
      have hle : prod ds * g.bits ≤ g.width := Nat.le_trans (by rw [Nat.succ_mul]; omega) hfit
      have hlo : l * (prod ds * g.bits) + prod ds * g.bits ≤ (h + 1) * (prod ds * g.bits) := by
        rw [← Nat.succ_mul]; exact Nat.mul_le_mul_right _ (by omega)
      have hbase : i.size.tail.foldl mul32 i.vw = prod ds * g.bits := by
        rw [hsz, R.vw, List.tail_cons, foldl_mul32 _ _ hdp (by omega)]
      have hm1 : mul32 l (prod ds * g.bits) = l * (prod ds * g.bits) := u32_eq (by omega)
      have hm2 : mul32 (h + 1) (prod ds * g.bits) = (h + 1) * (prod ds * g.bits) := u32_eq (by omega)
      by_cases hsc : ds = [] ∧ d = 1
      · -- a single dimension of size 1: explicit array, or the last dimension of a larger array
        obtain ⟨rfl, rfl⟩ := hsc
        have h0 : h = 0 := by omega
        have l0 : l = 0 := by omega
        subst h0 l0
        simp only [prod_nil, Nat.one_mul, Nat.zero_mul, Nat.add_zero, if_true] at *
        have hw1 : ¬ (0 ≥ Slice.width i) := by rw [hwid]; omega
        cases hp : i.pdecr with
        | none =>
          obtain ⟨hi, hg⟩ := R.root hp
          have hrs : r.size = [1] := by rw [hi] at hsz; exact hsz
          have hex : r.explicit = true := by
            rw [hg] at hd
            unfold Root.region at hd
            cases he : r.explicit with
            | true => rfl
            | false => simp [he, hrs] at hd
          have hg0 : g.off = 0 := by rw [hg]; rfl
          refine ⟨{ vw := g.bits, size := [1], low := 0, high := g.bits - 1, explicit := false,
                    decr := i.decr, pdecr := some i.decr }, ?_, ?_⟩
          · have hex' : i.explicit = true := by rw [hi]; exact hex
            unfold select mkSlice
            simp [hsz, hw1, hex', hp, R.vw]
          · refine ⟨rfl, hg0.symm, ?_, ?_, ?_, hbp, ?_, ?_, ?_, ?_, ?_⟩
            · simp [Region.width, hg0]
            · simp [Region.width] at *; omega
            · simp
            · simp
            · rw [R.decr, hsz]
            · have := R.len; rw [hsz] at this; exact this
            · intro hq; cases hq
            · intro q hq; cases hq
              exact ⟨rfl, by simp, fun _ => Or.inl (by rw [hrs]; rfl), by simp, by simp⟩
        | some q =>
          obtain ⟨hex, h1, _, _, _⟩ := R.slice q hp
          obtain ⟨hl, hlen, hq⟩ := h1 hd
          have hdec : i.decr = r.size.length - 1 := by rw [R.decr, hsz]; rfl
          have hne : (i.decr != q) = true := by simp; omega
          refine ⟨{ vw := g.bits, size := [1], low := i.low, high := i.high, explicit := false,
                    decr := i.decr, pdecr := some i.decr }, ?_, ?_⟩
          · have hdr : droppedDim r i 0 0 = true := by
              unfold droppedDim
              simp [hp, hl, hlen, hne, hdec]
              omega
            unfold select mkSlice
            simp [hsz, hw1, hp, hex, hdr, R.vw]
          · refine ⟨rfl, R.low, ?_, ?_, ?_, hbp, ?_, ?_, ?_, ?_, ?_⟩
            · rw [R.high, hgw]; simp [Region.width]
            · simp [Region.width] at *; omega
            · simp
            · simp
            · rw [R.decr, hsz]
            · have := R.len; rw [hsz] at this; exact this
            · intro hq; cases hq
            · intro q hq; cases hq
              exact ⟨rfl, by simp, fun _ => Or.inr (Or.inr rfl), by simp, by simp⟩
      · have hnsc : (i.size == [1]) = false := by
          rw [hsz]
          simp only [beq_eq_false_iff_ne, ne_eq, List.cons.injEq, not_and]
          intro h1 h2; exact hsc ⟨h2, h1⟩
        have hnh : ¬ (h ≥ d) := by omega
        have hlg : ¬ (l > h) := by omega
        -- dimensions of the slice
        have hvs : ∃ sz, (if h = l then if i.size.length = 1 then (i.vw, [1]) else (i.vw, i.size.tail)
            else (i.vw, i.size.dropLast ++ [u32 (h - l + 1)])) = (g.bits, sz) ∧
            sz = (if (if h = l then ds else (h - l + 1) :: ds) = [] then [1] else (if h = l then ds else (h - l + 1) :: ds)) := by
          by_cases he : h = l
          · simp only [he, if_true]
            cases ds with
            | nil => exact ⟨[1], by simp [hsz, R.vw], by simp⟩
            | cons a b => exact ⟨a :: b, by simp [hsz, R.vw], by simp⟩
          · have := hr he
            rw [hd] at this
            have hds : ds = [] := by
              cases ds with
              | nil => rfl
              | cons a b => simp at this
            subst hds
            have hd32 : d < 2 ^ 32 := by
              rw [hgw'] at hin
              have : d * 1 ≤ d * (prod [] * g.bits) := Nat.mul_le_mul_left _ hn1
              omega
            exact ⟨[h - l + 1], by simp [hsz, R.vw, he, u32_eq (show h - l + 1 < 2 ^ 32 by omega)], by simp [he]⟩
        obtain ⟨sz, hv, hszn⟩ := hvs
        have hlow : i.low = g.off := R.low
        refine ⟨{ vw := g.bits, size := sz, low := g.off + l * (prod ds * g.bits),
                  high := g.off + (h + 1) * (prod ds * g.bits) - 1, explicit := false,
                  decr := i.decr + (i.size.length - sz.length), pdecr := some i.decr }, ?_, ?_⟩
        · have hsel : select r i h l = mkSlice r i h l := by
            unfold select
            rw [if_neg hlg]
            simp only [hsz]
            rw [if_neg hsc, if_neg hnh]
          rw [hsel]
          unfold mkSlice
          simp only [hnsc, Bool.false_and, Bool.false_eq_true, if_false, hbase, hm1, hm2, hlow]
          have e1 : u32 (g.off + l * (prod ds * g.bits)) = g.off + l * (prod ds * g.bits) := u32_eq (by omega)
          have e2 : u32 (g.off + (h + 1) * (prod ds * g.bits)) = g.off + (h + 1) * (prod ds * g.bits) := u32_eq (by omega)
          have hv' : (if h = l then if i.size.length = 1 then .ok (i.vw, [1]) else .ok (i.vw, i.size.tail)
            else .ok (i.vw, i.size.dropLast ++ [u32 (h - l + 1)]) : Res (Nat × List Nat)) = .ok (g.bits, sz) := by
            rw [← hv]; split
            · split <;> rfl
            · rfl
          rw [hv', Res.ok_bind, e1, e2]
          split
          · rename_i hp
            have hg := (R.root hp).2
            have : g.off = 0 := by rw [hg]; rfl
            simp [this]
          · rfl
        · -- relation for the new region
          have hszlen : sz.length ≤ i.size.length ∧ 1 ≤ sz.length ∧ (sz.length < i.size.length → h = l ∧ sz = ds) ∧
              (sz.length = i.size.length → h ≠ l ∨ ds = []) := by
            rw [hszn, hsz]
            by_cases he : h = l
            · cases ds <;> simp [he]
            · simp [he]
          have hpos' : ∀ x ∈ (if h = l then ds else (h - l + 1) :: ds), 1 ≤ x := by
            intro x hx
            split at hx
            · exact hdp x hx
            · rw [List.mem_cons] at hx
              rcases hx with rfl | hx
              · omega
              · exact hdp x hx
          have hwn : (Region.mk (g.off + l * (prod ds * g.bits)) (if h = l then ds else (h - l + 1) :: ds) g.bits).width
              = (h - l + 1) * (prod ds * g.bits) := by
            unfold Region.width
            dsimp only
            split
            · rename_i he; simp [he]
            · rw [prod_cons, Nat.mul_assoc]
          have hsum : l * (prod ds * g.bits) + (h - l + 1) * (prod ds * g.bits) = (h + 1) * (prod ds * g.bits) := by
            rw [← Nat.add_mul]; congr 1; omega
          refine ⟨rfl, rfl, ?_, ?_, hpos', hbp, hszn, ?_, ?_, ?_, ?_⟩
          · dsimp only; rw [hwn]; omega
          · dsimp only; rw [hwn]; omega
          · dsimp only
            have := R.decr; have := R.len; omega
          · dsimp only; have := R.len; omega
          · intro hq; cases hq
          · intro q hq
            cases hq
            have hlast : ∀ (a : Nat) (t : List Nat), ds = a :: t → r.size.getLast? = some 1 → (a :: t).getLast? = some 1 := by
              intro a t hds hl
              have : g.dims.getLast? = some 1 := by
                cases hp : i.pdecr with
                | none =>
                  have hi := (R.root hp).1
                  have : r.size = d :: ds := by rw [hi] at hsz; exact hsz
                  rw [hd, ← this]; exact hl
                | some q => exact (R.slice q hp).2.2.2.1 (by rw [hd]; simp) hl
              rw [hd, hds] at this
              simpa [List.getLast?_cons_cons] using this
            have hone : ds = [] → r.size.getLast? = some 1 → r.size.length = 1 ∨ d = 1 := by
              intro hds hl
              cases hp : i.pdecr with
              | none =>
                have hi := (R.root hp).1
                have : r.size = d :: ds := by rw [hi] at hsz; exact hsz
                left; rw [this, hds]; rfl
              | some q =>
                have := (R.slice q hp).2.2.2.1 (by rw [hd]; simp) hl
                rw [hd, hds] at this
                right; simpa using this
            refine ⟨rfl, ?_, ?_, ?_, ?_⟩
            · dsimp only
              intro h1
              by_cases he : h = l
              · simp only [he, if_true] at h1
                subst h1
                have hlen := R.len
                rw [hsz] at hlen
                simp only [List.length_cons, List.length_nil] at hlen
                have hszl : sz.length = 1 := by rw [hszn]; simp [he]
                have : r.size.getLast? = some 1 := by
                  cases hp : i.pdecr with
                  | none =>
                    have hi := (R.root hp).1
                    have : r.size = [d, 1] := by rw [hi] at hsz; exact hsz
                    rw [this]; rfl
                  | some q =>
                    rw [← (R.slice q hp).2.2.2.2 (by rw [hd]; simp), hd]
                    rfl
                refine ⟨this, by omega, ?_⟩
                rw [hsz, hszl]
                simp
              · simp only [he, if_false, List.cons.injEq] at h1
                omega
            · dsimp only
              intro h1
              have hds : h = l ∧ ds = [] := by
                by_cases he : h = l
                · simp only [he, if_true] at h1; exact ⟨he, h1⟩
                · simp [he] at h1
              by_cases hl : r.size.getLast? = some 1
              · rcases hone hds.2 hl with h2 | h2
                · exact Or.inl h2
                · exact absurd ⟨hds.2, h2⟩ hsc
              · exact Or.inr (Or.inl hl)
            · dsimp only
              intro h1 hl
              by_cases he : h = l
              · simp only [he, if_true] at h1 ⊢
                cases hds : ds with
                | nil => exact absurd hds h1
                | cons a t => exact hlast a t hds hl
              · have hdn := hr he
                rw [hd] at hdn
                have hds : ds = [] := by
                  cases ds with
                  | nil => rfl
                  | cons a b => simp at hdn
                rcases hone hds hl with h2 | h2
                · -- one-dimensional array whose size is 1 has no proper range
                  have : d = 1 := by
                    cases hp : i.pdecr with
                    | none =>
                      have hi := (R.root hp).1
                      have hrs : r.size = d :: ds := by rw [hi] at hsz; exact hsz
                      rw [hrs, hds] at hl; simpa using hl
                    | some q =>
                      have := (R.slice q hp).2.2.2.1 (by rw [hd]; simp) hl
                      rw [hd, hds] at this; simpa using this
                  omega
                · omega
            · dsimp only
              intro h2
              by_cases he : h = l
              · simp only [he, if_true] at h2 ⊢
                have hg2 : g.dims.getLast? = r.size.getLast? := by
                  cases hp : i.pdecr with
                  | none =>
                    have hi := (R.root hp).1
                    have hrs : r.size = d :: ds := by rw [hi] at hsz; exact hsz
                    rw [hd, hrs]
                  | some q => exact (R.slice q hp).2.2.2.2 (by rw [hd]; simp; omega)
                rw [hd] at hg2
                cases ds with
                | nil => simp at h2
                | cons a t => rw [← hg2, List.getLast?_cons_cons]
              · have := hr he
                rw [hd] at this
                simp only [he, if_false, List.length_cons] at h2 this
                omega
    · cases hs

end Kratos.Slice

namespace Kratos.Slice

/-- One selection that the specification rejects. -/
theorem rel_reject {r i g h l} (ok : r.Ok) (R : Rel r i g) (hs : g.sel h l = none)
    (h1 : g.dims = [1] → i.pdecr = none) : select r i h l = .throw .var := by
  have hwid := R.width ok
  unfold Region.sel at hs
  unfold select
  split at hs
  · rename_i hlh
    rw [if_pos (by omega)]
  rename_i hlh
  rw [if_neg (by omega)]
  cases hd : g.dims with
  | nil =>
    simp only [hd] at hs
    split at hs
    · cases hs
    · rename_i hb
      have hsz : i.size = [1] := by rw [R.shape, if_pos hd]
      have hgw : g.width = g.bits := by simp [Region.width, hd]
      simp only [hsz, and_self, if_true]
      rw [if_pos (by rw [hwid, hgw]; omega)]
  | cons d ds =>
    simp only [hd] at hs
    split at hs
    · cases hs
    · rename_i hb
      have hsz : i.size = d :: ds := by rw [R.shape, hd]; simp
      simp only [hsz]
      by_cases hsc : ds = [] ∧ d = 1
      · rw [if_pos hsc]
        split
        · rfl
        · obtain ⟨rfl, rfl⟩ := hsc
          have hp := h1 hd
          obtain ⟨hi, hg⟩ := R.root hp
          have hrs : r.size = [1] := by rw [hi] at hsz; exact hsz
          have hex : i.explicit = true := by
            rw [hg] at hd
            unfold Root.region at hd
            rw [hi]
            cases he : r.explicit with
            | true => simp [rootInfo, he]
            | false => simp [he, hrs] at hd
          have hne : h ≠ 0 := by omega
          unfold mkSlice
          simp [hsz, hex, hne]
      · rw [if_neg hsc, if_pos (by omega)]

theorem rel_chain {r : Root} (ok : r.Ok) : ∀ (cs : List (Nat × Nat)) (i : Info) (g g' : Region), Rel r i g →
    NoWideRange g cs → g.sels cs = some g' → ∃ i', selects r i cs = .ok i' ∧ Rel r i' g'
  | [], i, g, g', R, _, hs => by
      cases hs
      exact ⟨i, rfl, R⟩
  | (h, l) :: cs, i, g, g', R, hn, hs => by
      unfold Region.sels at hs
      cases hg : g.sel h l with
      | none => simp [hg] at hs
      | some g1 =>
        simp only [hg] at hs
        obtain ⟨i1, hi1, R1⟩ := rel_step ok R hg hn.1
        obtain ⟨i', hi', R'⟩ := rel_chain ok cs i1 g1 g' R1 (hn.2 g1 hg) hs
        exact ⟨i', by simp [selects, hi1, hi'], R'⟩

theorem rel_chain_reject {r : Root} (ok : r.Ok) (hl : r.size.getLast? ≠ some 1 ∨ r.size.length = 1) :
    ∀ (cs : List (Nat × Nat)) (i : Info) (g : Region), Rel r i g →
    NoWideRange g cs → g.sels cs = none → selects r i cs = .throw .var
  | [], i, g, R, _, hs => by cases hs
  | (h, l) :: cs, i, g, R, hn, hs => by
      unfold Region.sels at hs
      cases hg : g.sel h l with
      | none =>
        have := rel_reject ok R hg (by
          intro h1
          cases hp : i.pdecr with
          | none => rfl
          | some q =>
            obtain ⟨a, b, _⟩ := (R.slice q hp).2.1 h1
            rcases hl with hl | hl
            · exact absurd a hl
            · omega)
        simp [selects, this]
      | some g1 =>
        simp only [hg] at hs
        obtain ⟨i1, hi1, R1⟩ := rel_step ok R hg hn.1
        have := rel_chain_reject ok hl cs i1 g1 R1 (hn.2 g1 hg) hs
        simp [selects, hi1, this]

/-! ### The simulator's own computation -/

theorem simRest_eq {tot : Nat} (ht : tot < 2 ^ 32) : ∀ (cs : List (Nat × Nat)) (g g' : Region) (hi : Nat),
    g.dims = [] → g.off + g.width ≤ tot → (∀ c ∈ cs, c.1 = c.2) → g.sels cs = some g' → cs ≠ [] →
    simRest cs g.off hi = (g'.off + g'.width - 1, g'.off)
  | [], _, _, _, _, _, _, _, h => absurd rfl h
  | (h, l) :: cs, g, g', hi, hd, hin, hall, hs, _ => by
      have hhl : h = l := hall (h, l) (by simp)
      subst hhl
      unfold Region.sels Region.sel at hs
      simp only [Nat.lt_irrefl, if_false, hd] at hs
      have hgw : g.width = g.bits := by simp [Region.width, hd]
      by_cases hb : h < g.bits
      · simp only [hb, if_true, Nat.sub_self, Nat.zero_add] at hs
        have e : u32 (g.off + h) = g.off + h := u32_eq (by omega)
        rw [simRest, Nat.sub_self, Nat.add_zero, e, e]
        cases cs with
        | nil =>
          simp only [Region.sels, Option.some.injEq] at hs
          subst hs
          simp [simRest, Region.width]
        | cons c cs =>
          refine simRest_eq ht (c :: cs) ⟨g.off + h, [], 1⟩ g' _ rfl ?_ (fun x hx => hall x (by simp [hx])) hs (by simp)
          simp only [Region.width, prod_nil]
          omega
      · simp [hb] at hs

theorem simLoop_eq {tot : Nat} (ht : tot < 2 ^ 32) : ∀ (cs : List (Nat × Nat)) (g g' : Region) (hi : Nat),
    (∀ d ∈ g.dims, 2 ≤ d) → 1 ≤ g.bits → g.off + g.width ≤ tot → (∀ c ∈ cs, c.1 = c.2) → g.sels cs = some g' →
    cs ≠ [] → simLoop g.bits cs g.dims g.off hi = (g'.off + g'.width - 1, g'.off)
  | [], _, _, _, _, _, _, _, _, h => absurd rfl h
  | (h, l) :: cs, g, g', hi, hp, hb1, hin, hall, hs, _ => by
      have hhl : h = l := hall (h, l) (by simp)
      subst hhl
      cases hd : g.dims with
      | nil =>
        rw [simLoop]
        exact simRest_eq ht _ g g' hi hd hin hall hs (by simp)
      | cons d ds =>
        have hs' := hs
        unfold Region.sels Region.sel at hs'
        simp only [Nat.lt_irrefl, if_false, hd, if_true] at hs'
        have hd2 : 2 ≤ d := hp d (by simp [hd])
        have hdp : ∀ x ∈ ds, 2 ≤ x := fun x hx => hp x (by simp [hd, hx])
        have hdp1 : ∀ x ∈ ds, 1 ≤ x := fun x hx => Nat.le_of_succ_le (hdp x hx)
        by_cases hlt : h < d
        · simp only [hlt, if_true] at hs'
          have hgw : g.width = d * (prod ds * g.bits) := by simp [Region.width, hd, Nat.mul_assoc]
          have hn1 : 1 ≤ prod ds * g.bits := Nat.mul_le_mul (prod_pos hdp1) hb1
          have hfit : (h + 1) * (prod ds * g.bits) ≤ g.width := by
            rw [hgw]; exact Nat.mul_le_mul_right _ (by omega)
          have hsucc : (h + 1) * (prod ds * g.bits) = h * (prod ds * g.bits) + prod ds * g.bits := Nat.succ_mul _ _
          have hpl : prod ds ≤ prod ds * g.bits := Nat.le_mul_of_pos_right _ hb1
          have hb : mul32 (ds.foldr mul32 1) g.bits = prod ds * g.bits := by
            rw [foldr_mul32 ds hdp1 (by omega)]
            exact u32_eq (by omega)
          have hm : mul32 h (prod ds * g.bits) = h * (prod ds * g.bits) := u32_eq (by omega)
          have hm1 : mul32 (0 + 1) (prod ds * g.bits) = prod ds * g.bits := by
            unfold mul32; rw [Nat.zero_add, Nat.one_mul]; exact u32_eq (by omega)
          have e1 : u32 (g.off + h * (prod ds * g.bits)) = g.off + h * (prod ds * g.bits) := u32_eq (by omega)
          have e2 : u32 (g.off + h * (prod ds * g.bits) + prod ds * g.bits) = g.off + h * (prod ds * g.bits) + prod ds * g.bits := u32_eq (by omega)
          rw [simLoop]
          simp only [hb, gt_iff_lt, Nat.lt_irrefl, if_false, true_and]
          rw [if_pos (show 1 < d by omega), Nat.sub_self, hm, hm1, e1, e2]
          cases cs with
          | nil =>
            simp only [Region.sels, Option.some.injEq] at hs'
            subst hs'
            simp [simLoop, Region.width]
          | cons c cs =>
            refine simLoop_eq ht (c :: cs) ⟨g.off + h * (prod ds * g.bits), ds, g.bits⟩ g' _ hdp hb1 ?_
              (fun x hx => hall x (by simp [hx])) hs' (by simp)
            simp only [Region.width]
            omega
        · simp [hlt] at hs'

theorem simOob_index : ∀ (cs : List (Nat × Nat)) (ds : List Nat), (∀ c ∈ cs, c.1 = c.2) → simRangeOob cs ds = false
  | [], _, _ => by unfold simRangeOob; rfl
  | (h, l) :: cs, ds, hall => by
      have hhl : h = l := hall (h, l) (by simp)
      subst hhl
      unfold simRangeOob
      cases ds with
      | nil => simp
      | cons d ds =>
        simp only [gt_iff_lt, Nat.lt_irrefl, if_false, true_and]
        split
        · exact simOob_index cs ds (fun x hx => hall x (by simp [hx]))
        · rfl

/-! ### Flattened indices -/

theorem digits_append : ∀ (xs : List Nat) (n : Nat) (d : Nat), digits n (xs ++ [d]) = digits n xs ++ [n / prod xs % d]
  | [], n, d => by simp [digits]
  | x :: xs, n, d => by
      simp [digits, digits_append xs, Nat.div_div_eq_div_mul]

theorem prod_append : ∀ (xs ys : List Nat), prod (xs ++ ys) = prod xs * prod ys
  | [], ys => by simp
  | x :: xs, ys => by simp [prod_append xs ys, Nat.mul_assoc]

theorem prod_reverse : ∀ (xs : List Nat), prod xs.reverse = prod xs
  | [] => rfl
  | x :: xs => by simp [prod_append, prod_reverse xs, Nat.mul_comm]

theorem digits_mod : ∀ (xs : List Nat) (n k : Nat), (∀ x ∈ xs, 1 ≤ x) → digits (n + k * prod xs) xs = digits n xs
  | [], _, _, _ => rfl
  | x :: xs, n, k, h => by
      have hx : 0 < x := h x (by simp)
      have e : n + k * (x * prod xs) = n + x * (k * prod xs) := by
        congr 1; ac_rfl
      simp only [digits, prod_cons, e, Nat.add_mul_mod_self_left, Nat.add_mul_div_left _ _ hx]
      rw [digits_mod xs _ _ (fun y hy => h y (by simp [hy]))]

end Kratos.Slice
