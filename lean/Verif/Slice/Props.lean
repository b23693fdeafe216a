import Verif.Slice.Lemmas

/-!
# C08 slices, C09 tiling and flattening, C10 packed structs
-/

namespace Kratos.Slice

/-! ## C08 -/

/-- C08 in full: a chain of selections is accepted exactly when the declared type has it, and then
stands for exactly those bits. -/
def SliceCorrect : Prop := ∀ (r : Root), r.Ok → ∀ cs : List (Nat × Nat),
  match r.region.sels cs with
  | some g => ∃ i, selects r (rootInfo r) cs = .ok i ∧ i.low = g.off ∧ i.high = g.off + g.width - 1 ∧ width i = g.width
  | none => selects r (rootInfo r) cs = .throw .var

/-- Chains without a part-select of a multi-dimensional array stand for the bits they name: a
non-empty range inside the variable. -/
theorem slice_select_partial (r : Root) (ok : r.Ok) (cs : List (Nat × Nat)) (g : Region)
    (hn : NoWideRange r.region cs) (hs : r.region.sels cs = some g) :
    ∃ i, selects r (rootInfo r) cs = .ok i ∧ i.low = g.off ∧ i.high = g.off + g.width - 1 ∧
      width i = g.width ∧ i.low ≤ i.high ∧ i.high < prod r.size * r.w := by
  obtain ⟨i, hi, R⟩ := rel_chain ok cs _ _ g (rel_root ok) hn hs
  have hw := width_pos R.pos R.bpos
  have hin := R.inside
  exact ⟨i, hi, R.low, R.high, R.width ok, by rw [R.low, R.high]; omega, by rw [R.high]; omega⟩

/-- Selections the type does not have are rejected, if the array does not end in a dimension of
size 1. -/
theorem slice_reject_partial (r : Root) (ok : r.Ok) (cs : List (Nat × Nat))
    (hl : r.size.getLast? ≠ some 1 ∨ r.size.length = 1)
    (hn : NoWideRange r.region cs) (hs : r.region.sels cs = none) :
    selects r (rootInfo r) cs = .throw .var :=
  rel_chain_reject ok hl cs _ _ (rel_root ok) hn hs

def r43 : Root := ⟨8, [4, 3], false⟩
theorem r43_ok : r43.Ok := ⟨by decide, by decide, by decide, by decide, by decide⟩

/-- Non-vacuity: `a[2][1][6:3]` of `logic [3:0][2:0][7:0] a`. -/
example : ∃ g, r43.region.sels [(2, 2), (1, 1), (6, 3)] = some g ∧ g.off = 2 * 24 + 8 + 3 ∧ g.width = 4 ∧
    NoWideRange r43.region [(2, 2), (1, 1), (6, 3)] := by
  refine ⟨_, rfl, by decide, by decide, ?_⟩
  simp [NoWideRange, Root.region, r43, Region.sel]

/-- A part-select of a two-dimensional array has the wrong width (8 elements instead of 6), and
indexing it can leave the variable altogether. -/
theorem slice_counterexample_range :
    (∃ g i, r43.region.sels [(2, 1)] = some g ∧ selects r43 (rootInfo r43) [(2, 1)] = .ok i ∧
      g.width = 48 ∧ width i = 64) ∧
    (r43.region.sels [(3, 2), (3, 3)] = none ∧ ∃ i, selects r43 (rootInfo r43) [(3, 2), (3, 3)] = .ok i ∧
      i.low = prod r43.size * r43.w) := by
  refine ⟨⟨_, _, rfl, rfl, by decide, by decide⟩, by decide, _, rfl, by decide⟩

/-- `a[0][3]` of `logic [3:0][0:0][7:0] a` is accepted although the inner dimension has size 1. -/
theorem slice_counterexample_unit :
    (Root.mk 8 [4, 1] false).region.sels [(0, 0), (3, 3)] = none ∧
    ∃ i, selects ⟨8, [4, 1], false⟩ (rootInfo ⟨8, [4, 1], false⟩) [(0, 0), (3, 3)] = .ok i ∧ i.low = 3 ∧ width i = 1 :=
  ⟨by decide, _, rfl, by decide, by decide⟩

theorem not_SliceCorrect : ¬ SliceCorrect := by
  intro h
  have := h r43 r43_ok [(2, 1)]
  obtain ⟨⟨g, i, hg, hi, hw, hv⟩, _⟩ := slice_counterexample_range
  simp only [hg] at this
  obtain ⟨i', hi', _, _, hw'⟩ := this
  rw [hi] at hi'
  cases hi'
  omega

/-- Selecting from a selection: positions add up.  `o` is where the second chain lands in a fresh
variable of the shape of the first selection. -/
theorem sels_shift : ∀ (cs : List (Nat × Nat)) (g : Region), g.sels cs =
    ((⟨0, g.dims, g.bits⟩ : Region).sels cs).map fun g' => { g' with off := g.off + g'.off }
  | [], g => by simp [Region.sels]
  | (h, l) :: cs, g => by
      unfold Region.sels
      have key : g.sel h l = ((⟨0, g.dims, g.bits⟩ : Region).sel h l).map fun g' => { g' with off := g.off + g'.off } := by
        unfold Region.sel
        split
        · rfl
        · cases hd : g.dims with
          | nil => simp only; split <;> simp
          | cons d ds => simp only; split <;> simp
      rw [key]
      cases hx : (⟨0, g.dims, g.bits⟩ : Region).sel h l with
      | none => simp
      | some g1 =>
        simp only [Option.map_some]
        rw [sels_shift cs { g1 with off := g.off + g1.off }, sels_shift cs g1]
        simp [Option.map_map, Function.comp_def, Nat.add_assoc]

theorem sels_append (cs ds : List (Nat × Nat)) : ∀ g : Region, g.sels (cs ++ ds) = (g.sels cs).bind fun g' => g'.sels ds := by
  induction cs with
  | nil => intro g; rfl
  | cons c cs ih =>
    intro g
    obtain ⟨h, l⟩ := c
    simp only [List.cons_append, Region.sels]
    cases g.sel h l with
    | none => rfl
    | some g1 => exact ih g1

/-- Selecting twice composes: `v[cs][ds]` is at the position of `v[cs]` plus the position of `[ds]`
inside a variable of that shape. -/
theorem slice_compose (r : Root) (ok : r.Ok) (cs ds : List (Nat × Nat)) (g g' : Region)
    (hn : NoWideRange r.region (cs ++ ds)) (hnc : NoWideRange r.region cs)
    (hg : r.region.sels cs = some g) (hg' : (⟨0, g.dims, g.bits⟩ : Region).sels ds = some g') :
    ∃ i j, selects r (rootInfo r) cs = .ok i ∧ selects r (rootInfo r) (cs ++ ds) = .ok j ∧
      j.low = i.low + g'.off ∧ width j = g'.width := by
  obtain ⟨i, hi, hil, _⟩ := slice_select_partial r ok cs g hnc hg
  have hall : r.region.sels (cs ++ ds) = some { g' with off := g.off + g'.off } := by
    rw [sels_append, hg]
    simp only [Option.bind_some]
    rw [sels_shift, hg']
    rfl
  obtain ⟨j, hj, hjl, _, hjw, _⟩ := slice_select_partial r ok (cs ++ ds) _ hn hall
  exact ⟨i, j, hi, hj, by rw [hjl, hil], by rw [hjw]; rfl⟩

/-! ### The slice cache -/

/-- Every stored slice is the slice of the range stored with it, and no range is stored twice. -/
def CacheOk (r : Root) (p : Info) (slices : List Entry) : Prop :=
  (∀ e ∈ slices, mkSlice r p e.high e.low = .ok e.info) ∧ (slices.map fun e => (e.high, e.low)).Nodup

/-- For a variable that is not a packed struct, `operator[]` returns the slice of the requested
range, keeps what was stored, and returns the same object when asked again. -/
theorem slice_cache (r : Root) (p : Info) (slices : List Entry) (h l k : Nat) (new : List Entry)
    (hok : CacheOk r p slices) (hs : selectCached false r p slices h l = .ok (k, new)) :
    CacheOk r p new ∧ (∃ e, new[k]? = some e ∧ e.high = h ∧ e.low = l ∧ select r p h l = .ok e.info) ∧
      slices <+: new ∧ selectCached false r p new h l = .ok (k, new) := by
  unfold selectCached at hs
  split at hs
  · cases hs
  rename_i hlh
  cases hsz : p.size with
  | nil => simp [hsz] at hs
  | cons d ds =>
    simp only [hsz] at hs
    split at hs
    · cases hs
    rename_i hb
    have hsel : ∀ q, mkSlice r p h l = .ok q → select r p h l = .ok q := by
      intro q hq
      unfold select
      rw [if_neg hlh]
      simp only [hsz]
      by_cases hc : ds = [] ∧ d = 1
      · rw [if_pos hc, if_neg (fun h' => hb (Or.inl ⟨hc.1, hc.2, h'⟩))]; exact hq
      · rw [if_neg hc, if_neg (fun h' => hb (Or.inr ⟨hc, h'⟩))]; exact hq
    have hagain : ∀ (sl : List Entry) k, sl.findIdx? (fun e => e.high == h && e.low == l) = some k →
        selectCached false r p sl h l = .ok (k, sl) := by
      intro sl k hk
      unfold selectCached
      rw [if_neg hlh]
      simp only [hsz]
      rw [if_neg hb]
      simp only [hk]
    split at hs
    · rename_i k' hk
      simp only [Res.ok.injEq, Prod.mk.injEq] at hs
      obtain ⟨rfl, rfl⟩ := hs
      refine ⟨hok, ?_, List.prefix_refl _, hagain _ _ hk⟩
      rw [List.findIdx?_eq_some_iff_getElem] at hk
      obtain ⟨hlt, hp, _⟩ := hk
      simp only [Bool.and_eq_true, beq_iff_eq] at hp
      refine ⟨slices[k'], by simp [hlt], hp.1, hp.2, hsel _ ?_⟩
      have := hok.1 slices[k'] (List.getElem_mem hlt)
      rw [hp.1, hp.2] at this
      exact this
    · rename_i hk
      rw [Res.bind_eq_ok] at hs
      obtain ⟨q, hq, hs⟩ := hs
      simp only [Bool.false_and, Bool.false_eq_true, if_false, Res.ok.injEq, Prod.mk.injEq] at hs
      obtain ⟨rfl, rfl⟩ := hs
      have hnone : ∀ e ∈ slices, ¬ (e.high = h ∧ e.low = l) := by
        rw [List.findIdx?_eq_none_iff] at hk
        intro e he hc
        have := hk e he
        simp [hc.1, hc.2] at this
      refine ⟨⟨?_, ?_⟩, ⟨⟨h, l, q⟩, by simp, rfl, rfl, hsel q hq⟩, List.prefix_append _ _, ?_⟩
      · intro e he
        rw [List.mem_append] at he
        rcases he with he | he
        · exact hok.1 e he
        · simp only [List.mem_singleton] at he
          subst he; exact hq
      · rw [List.map_append, List.nodup_append]
        refine ⟨hok.2, by simp, ?_⟩
        intro a ha b hb heq
        simp only [List.map_cons, List.map_nil, List.mem_singleton] at hb
        rw [List.mem_map] at ha
        obtain ⟨e, he, hea⟩ := ha
        subst hb heq
        simp only [Prod.mk.injEq] at hea
        exact hnone e he hea
      · apply hagain
        rw [List.findIdx?_append, hk]
        simp

example : CacheOk r43 (rootInfo r43) [] := ⟨by simp, by simp⟩

/-- For a packed struct the cache is keyed wrongly: after selecting bits 7:4, selecting bits 3:0
returns the slice of bits 7:4. -/
theorem slice_cache_counterexample :
    ∃ new e, selectCached true ⟨8, [1], false⟩ (rootInfo ⟨8, [1], false⟩) [] 7 4 = .ok (0, new) ∧
      selectCached true ⟨8, [1], false⟩ (rootInfo ⟨8, [1], false⟩) new 3 0 = .ok (0, new) ∧
      new[0]? = some e ∧ e.info.low = 4 :=
  ⟨_, _, rfl, rfl, rfl, rfl⟩

/-! ### The simulator's recomputation of the position -/

/-- Chains of plain indices on arrays without a dimension of size 1 (or scalars). -/
theorem sim_position_partial (r : Root) (ok : r.Ok) (hex : r.explicit = false)
    (hd : r.size = [1] ∨ ∀ d ∈ r.size, 2 ≤ d) (cs : List (Nat × Nat)) (hne : cs ≠ [])
    (hall : ∀ c ∈ cs, c.1 = c.2) (g : Region) (hs : r.region.sels cs = some g) :
    computeHighLow r cs = .ok (g.off + g.width - 1, g.off) := by
  unfold computeHighLow
  rw [simOob_index cs _ hall]
  simp only [Bool.false_eq_true, if_false, Res.ok.injEq]
  have hreg := region_width r
  rcases hd with hd | hd
  · have hrd : r.region.dims = [] := by simp [Root.region, hd, hex]
    cases cs with
    | nil => exact absurd rfl hne
    | cons c cs =>
      obtain ⟨h, l⟩ := c
      have hhl : h = l := hall (h, l) (by simp)
      subst hhl
      rw [hd, simLoop]
      simp only [gt_iff_lt, Nat.lt_irrefl, if_false, and_false]
      have := simRest_eq ok.small _ r.region g 0 hrd (by rw [hreg]; simp [Root.region]) hall hs hne
      simpa [Root.region] using this
  · have hrd : r.region.dims = r.size := by
      unfold Root.region
      dsimp only
      rw [if_neg]
      intro h
      have := hd 1 (by rw [h.1]; simp)
      omega
    have := simLoop_eq ok.small cs r.region g 0 (by rw [hrd]; exact hd) ok.w (by rw [hreg]; simp [Root.region]) hall hs hne
    rw [hrd] at this
    exact this

example : computeHighLow r43 [(2, 2), (1, 1), (6, 6)] = .ok (62, 62) := by decide

/-- Any proper range is placed wrongly (here bits 3:1 of a byte), indexes past the table (UB), and
a dimension of size 1 turns the following indices into bit positions. -/
theorem sim_position_counterexample :
    computeHighLow ⟨8, [1], false⟩ [(3, 1)] = .ok (255, 64) ∧
    computeHighLow ⟨8, [4], false⟩ [(1, 1), (3, 1)] = .ub ∧
    computeHighLow ⟨8, [1, 4], false⟩ [(0, 0), (2, 2)] = .ok (2, 2) ∧
    (Root.mk 8 [1, 4] false).region.sels [(0, 0), (2, 2)] = some ⟨16, [], 8⟩ := by decide

/-! ## C09 -/

/-- The selections of the outermost dimension are inside the variable, and every bit of the variable
lies in exactly one of them. -/
theorem array_tiles (r : Root) (ok : r.Ok) (d : Nat) (ds : List Nat) (hsz : r.size = d :: ds)
    (harr : ¬ (r.size = [1] ∧ r.explicit = false)) :
    ∃ s : Nat → Info, (∀ i < d, select r (rootInfo r) i i = .ok (s i)) ∧
      ∀ k < prod r.size * r.w, ∃ i < d, ((s i).low ≤ k ∧ k ≤ (s i).high) ∧
        ∀ j < d, ((s j).low ≤ k ∧ k ≤ (s j).high) → j = i := by
  have hdims : r.region.dims = d :: ds := by
    unfold Root.region; dsimp only; rw [if_neg harr, hsz]
  have hsel : ∀ i, i < d → r.region.sel i i = some ⟨i * (prod ds * r.w), ds, r.w⟩ := by
    intro i hi
    simp [Region.sel, hdims, hi]
    simp [Root.region]
  have hex : ∀ i, i < d → ∃ s, select r (rootInfo r) i i = .ok s ∧ Rel r s ⟨i * (prod ds * r.w), ds, r.w⟩ :=
    fun i hi => rel_step ok (rel_root ok) (hsel i hi) (by simp)
  refine ⟨fun i => match select r (rootInfo r) i i with | .ok s => s | _ => rootInfo r, ?_, ?_⟩
  · intro i hi
    obtain ⟨s, hs, _⟩ := hex i hi
    simp [hs]
  · intro k hk
    have hn : 1 ≤ prod ds * r.w := Nat.mul_le_mul (prod_pos fun x hx => ok.dims x (by simp [hsz, hx])) ok.w
    have hin : ∀ i, i < d → ∀ s, select r (rootInfo r) i i = .ok s → Rel r s ⟨i * (prod ds * r.w), ds, r.w⟩ →
        ((s.low ≤ k ∧ k ≤ s.high) ↔ k / (prod ds * r.w) = i) := by
      intro i _ s _ R
      have hl := R.low
      have hh := R.high
      simp only [Region.width] at hl hh
      rw [hl, hh, Nat.div_eq_iff (by omega)]
    have hkd : k / (prod ds * r.w) < d := by
      rw [Nat.div_lt_iff_lt_mul (by omega)]
      rw [hsz, prod_cons, Nat.mul_assoc] at hk
      exact hk
    refine ⟨k / (prod ds * r.w), hkd, ?_, ?_⟩
    · obtain ⟨s, hs, R⟩ := hex _ hkd
      simp only [hs]
      exact (hin _ hkd s hs R).2 rfl
    · intro j hj hb
      obtain ⟨s, hs, R⟩ := hex _ hj
      simp only [hs] at hb
      exact ((hin _ hj s hs R).1 hb).symm

example : r43.size = 4 :: [3] ∧ ¬ (r43.size = [1] ∧ r43.explicit = false) := by decide

theorem range_mul (n : Nat) : ∀ d, List.range (d * n) = (List.range d).flatMap fun i => (List.range n).map (i * n + ·)
  | 0 => by simp
  | d + 1 => by
      rw [Nat.succ_mul, List.range_add, range_mul n d, List.range_succ, List.flatMap_append]
      simp

theorem flatten_aux : ∀ ds : List Nat, (∀ d ∈ ds, 1 ≤ d) →
    (List.range (prod ds)).map (fun i => (digits i ds.reverse).reverse) = rowMajor ds
  | [], _ => by simp [rowMajor, digits]
  | d :: ds, h => by
      have hd : 0 < d := h d (by simp)
      have hds := fun x (hx : x ∈ ds) => h x (by simp [hx])
      have hp := prod_pos hds
      have ih := flatten_aux ds hds
      simp only [prod_cons, rowMajor, ← ih]
      rw [range_mul, List.map_flatMap, List.flatMap_def, List.flatMap_def]
      refine congrArg List.flatten (List.map_congr_left fun i hi => ?_)
      rw [List.mem_range] at hi
      simp only [List.map_map]
      apply List.map_congr_left
      intro j hj
      rw [List.mem_range] at hj
      simp only [Function.comp_def, List.reverse_cons, digits_append, List.reverse_append, List.reverse_nil, List.nil_append,
        List.singleton_append, prod_reverse]
      have e1 : (i * prod ds + j) / prod ds = i := by
        rw [Nat.mul_comm, Nat.mul_add_div (by omega), Nat.div_eq_of_lt hj]; rfl
      have e2 : digits (i * prod ds + j) ds.reverse = digits j ds.reverse := by
        have := digits_mod ds.reverse j i (fun x hx => hds x (by simpa using hx))
        rw [prod_reverse] at this
        rw [Nat.add_comm]; exact this
      rw [e1, e2, Nat.mod_eq_of_lt hi]

/-- The flattened indices are all index tuples, once each, in row-major order. -/
theorem flatten_row_major (r : Root) (ok : r.Ok) : flatten r = rowMajor r.size := by
  unfold flatten
  rw [foldl_mul32 _ _ ok.dims ok.small, Nat.mul_div_cancel _ ok.w]
  exact flatten_aux r.size ok.dims

/-- What `rowMajor` is: exactly the tuples with one index per dimension, each once. -/
theorem rowMajor_mem : ∀ (ds : List Nat) (t : List Nat), t ∈ rowMajor ds ↔ Below t ds
  | [], t => by cases t <;> simp [rowMajor, Below]
  | d :: ds, t => by
      simp only [rowMajor, List.mem_flatMap, List.mem_range, List.mem_map]
      constructor
      · rintro ⟨i, hi, u, hu, rfl⟩
        exact ⟨hi, (rowMajor_mem ds u).1 hu⟩
      · intro h
        cases t with
        | nil => exact absurd h (by simp [Below])
        | cons i u => exact ⟨i, h.1, u, (rowMajor_mem ds u).2 h.2, rfl⟩

theorem rowMajor_nodup : ∀ ds : List Nat, (rowMajor ds).Nodup
  | [] => by simp [rowMajor]
  | d :: ds => by
      simp only [rowMajor, List.flatMap_def]
      unfold List.Nodup
      rw [List.pairwise_flatten]
      constructor
      · intro l hl
        rw [List.mem_map] at hl
        obtain ⟨i, _, rfl⟩ := hl
        have ih := rowMajor_nodup ds
        unfold List.Nodup at *
        rw [List.pairwise_map]
        exact ih.imp (by intro a b hab h; exact hab (List.cons.inj h).2)
      · rw [List.pairwise_map]
        refine List.Pairwise.imp ?_ List.nodup_range
        intro a b hab x hx y hy hxy
        rw [List.mem_map] at hx hy
        obtain ⟨_, _, rfl⟩ := hx
        obtain ⟨_, _, rfl⟩ := hy
        exact hab (List.cons.inj hxy).1

example : flatten ⟨8, [2, 3], false⟩ = [[0,0],[0,1],[0,2],[1,0],[1,1],[1,2]] := by decide

/-! ## C10 -/

/-- Member ranges of a struct as the API computes them, in the order of the definition. -/
def apiLayout : Nat → List Fld → List (Nat × Nat)
  | _, [] => []
  | low, f :: fs => (low, f.bits) :: apiLayout (low + f.bits) fs

/-- Selecting a field gives its entry of the layout (names distinct, no empty field). -/
theorem member_range : ∀ (fs : List Fld) (base : Nat) (k : Nat) (hk : k < fs.length),
    (fs.map Fld.name).Nodup → (∀ f ∈ fs, 1 ≤ f.bits) →
    ∃ lo w, (apiLayout base fs)[k]? = some (lo, w) ∧ setUp fs[k].name base fs = .ok ((lo, lo + w - 1), fs[k]) ∧ w = fs[k].bits
  | f :: fs, base, 0, _, _, _ => ⟨base, f.bits, rfl, by simp [setUp, Nat.add_comm], rfl⟩
  | f :: fs, base, k + 1, hk, hn, hp => by
      simp only [List.length_cons, Nat.add_lt_add_iff_right] at hk
      simp only [List.map_cons, List.nodup_cons] at hn
      obtain ⟨lo, w, h1, h2, h3⟩ := member_range fs (base + f.bits) k hk hn.2 (fun g hg => hp g (by simp [hg]))
      refine ⟨lo, w, by simpa [apiLayout] using h1, ?_, by simpa using h3⟩
      have hne : f.name ≠ fs[k].name := by
        intro he
        apply hn.1
        rw [he]
        exact List.mem_map.2 ⟨fs[k], List.getElem_mem hk, rfl⟩
      simp [setUp, hne, h2]

/-- The ranges of the members tile the struct: every bit below the total width belongs to exactly one
entry of the layout. -/
theorem struct_tiles : ∀ (fs : List Fld) (base k : Nat), base ≤ k → k < base + bitsList fs →
    ∃ n < fs.length, (∃ lo w, (apiLayout base fs)[n]? = some (lo, w) ∧ lo ≤ k ∧ k < lo + w) ∧
      ∀ m lo w, (apiLayout base fs)[m]? = some (lo, w) → lo ≤ k → k < lo + w → m = n
  | [], base, k, h1, h2 => by simp [bitsList] at h2; omega
  | f :: fs, base, k, h1, h2 => by
      have hge : ∀ (gs : List Fld) (b m lo w : Nat), (apiLayout b gs)[m]? = some (lo, w) → b ≤ lo := by
        intro gs
        induction gs with
        | nil => intro b m lo w h; simp [apiLayout] at h
        | cons g gs ih =>
          intro b m lo w h
          cases m with
          | zero => simp [apiLayout] at h; omega
          | succ m => have := ih (b + g.bits) m lo w (by simpa [apiLayout] using h); omega
      by_cases hk : k < base + f.bits
      · refine ⟨0, by simp, ⟨base, f.bits, rfl, h1, hk⟩, ?_⟩
        intro m lo w hm hlo _
        cases m with
        | zero => rfl
        | succ m =>
          have := hge fs (base + f.bits) m lo w (by simpa [apiLayout] using hm)
          omega
      · simp only [bitsList] at h2
        obtain ⟨n, hn, ⟨lo, w, ha, hb⟩, huni⟩ := struct_tiles fs (base + f.bits) k (by omega) (by omega)
        refine ⟨n + 1, by simpa using hn, ⟨lo, w, by simpa [apiLayout] using ha, hb⟩, ?_⟩
        intro m lo' w' hm hlo hhi
        cases m with
        | zero => simp [apiLayout] at hm; omega
        | succ m => rw [huni m lo' w' (by simpa [apiLayout] using hm) hlo hhi]

/-- The claim of C10 about the emitted type: same bits for every member. -/
def StructMatchesTypedef : Prop := ∀ fs : List Fld, apiLayout 0 fs = svLayout (typedefOrder fs)

/-- It is false already for two one-bit members... -/
theorem struct_typedef_counterexample : ¬ StructMatchesTypedef := by
  intro h
  have := h [.plain 0 1, .plain 1 1]
  simp [apiLayout, svLayout, typedefOrder, Fld.bits, bitsList] at this

/-- ...and in general the emitted struct is the mirror image: the member at API position `lo` of
width `w` is at SystemVerilog position `total - lo - w`. -/
theorem struct_typedef_mirrored : ∀ (fs : List Fld) (base : Nat) (k lo w : Nat), (apiLayout base fs)[k]? = some (lo, w) →
    ∃ lo', (svLayout (typedefOrder fs))[k]? = some (lo', w) ∧ (lo - base) + w + lo' = bitsList fs ∧ base ≤ lo
  | [], _, _, _, _, h => by simp [apiLayout] at h
  | f :: fs, base, 0, lo, w, h => by
      simp [apiLayout] at h
      obtain ⟨rfl, rfl⟩ := h
      exact ⟨bitsList fs, rfl, by simp [bitsList], Nat.le_refl _⟩
  | f :: fs, base, k + 1, lo, w, h => by
      obtain ⟨lo', h1, h2, h3⟩ := struct_typedef_mirrored fs (base + f.bits) k lo w (by simpa [apiLayout] using h)
      exact ⟨lo', by simpa [svLayout, typedefOrder] using h1, by simp only [bitsList]; omega, by omega⟩

/-- The two agree on a member exactly when it sits in the middle of the struct. -/
theorem struct_typedef_partial (fs : List Fld) (k lo w : Nat) (h : (apiLayout 0 fs)[k]? = some (lo, w)) :
    (svLayout (typedefOrder fs))[k]? = some (lo, w) ↔ 2 * lo + w = bitsList fs := by
  obtain ⟨lo', h1, h2, _⟩ := struct_typedef_mirrored fs 0 k lo w h
  rw [h1]
  simp only [Option.some.injEq, Prod.mk.injEq, and_true]
  omega

/-- A struct with a single member is emitted with the right layout. -/
example : apiLayout 0 [.plain 7 12] = svLayout (typedefOrder [.plain 7 12]) := rfl

/-- Nested members: the position of `v.a.b` is that of `v.a` plus that of `b` in its struct. -/
theorem members_nested (lo hi : Nat) (fs gs : List Fld) (a b na la ha lb hb : Nat) (f : Fld)
    (h1 : setUp a 0 fs = .ok ((la, ha), .sub na gs)) (h2 : setUp b 0 gs = .ok ((lb, hb), f)) :
    members lo hi fs [a, b] = .ok (lo + la + lb, lo + la + hb) := by
  simp only [members, h1, Res.ok_bind, h2]
  cases f <;> simp [members] <;> omega

example : members 0 9 [.plain 0 2, .sub 1 [.plain 2 3, .plain 3 5]] [1, 3] = .ok (5, 9) := by
  simp [members, setUp, Fld.name, Fld.bits, bitsList]

end Kratos.Slice
