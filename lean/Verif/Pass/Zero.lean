import Verif.Pass.Connect
import Verif.Slice.Props

/-!
# C21: zeroing unconnected inputs and stubs (src/transform.cc:77-229)

`connected` is `Verif.Pass.Connect`, the slices are those of `Verif.Slice.Model`. A new assignment of zero is represented
by the bits `(low, high)` of its left side. Simplification: the statements go to the child generator, and the visitor runs
in parallel on generators that have no child in common; ports are handled one by one.
-/

namespace Kratos.Zero

open Kratos.Drv (Src Tgt VarId sources)
open Kratos.Conn
open Kratos.Slice (Root Info rootInfo select prod)
open Kratos.Kinds (mapRes)

/-- `diff_bits` (src/transform.cc:155-163). -/
def undriven (w : Nat) (set : List Nat) : List Nat := (List.range w).filter fun i => decide (i ∉ set)

/-- The loop of src/transform.cc:205-217, as the list of calls `wire_zero(h, l)`. -/
def gaps : List Nat → Nat → Nat → List (Nat × Nat)
  | [], low, pre => [(pre, low)]
  | b :: bs, low, pre => if b - pre > 1 then (pre, low) :: gaps bs b b else gaps bs low b

/-- Indices of the slice (src/transform.cc:176-194). -/
def scale (r : Root) (c : Nat × Nat) : Res (Nat × Nat) :=
  if r.size = [1] then .ok c
  else if c.2 % r.w ≠ 0 ∨ (c.1 + 1) % r.w ≠ 0 then .throw .stmt
  else .ok (c.1 / r.w, c.2 / r.w)

/-- The assignment for `(hh, ll)` (src/transform.cc:195-203): its bits, low and high.  A port of an enumeration type
(`enum`) refuses the number 0 (src/port.cc:136-141); a slice of it does not. -/
def wire (enum : Bool) (r : Root) (c : Nat × Nat) : Res (Nat × Nat) :=
  if c.2 = 0 ∧ c.1 = Slice.width (rootInfo r) - 1 then
    if enum then .throw .var else .ok (0, Slice.width (rootInfo r) - 1)
  else (select r (rootInfo r) c.1 c.2).bind fun i => .ok (i.low, i.high)

/-- `wire_zero` (src/transform.cc:173-204). -/
def wireZero (enum : Bool) (r : Root) (c : Nat × Nat) : Res (Nat × Nat) := (scale r c).bind fun c => wire enum r c

/-- One port (src/transform.cc:144-218): `diff_bits[0]` is undefined behaviour when nothing is missing. -/
def zeroPort (enum : Bool) (whole : Src → Bool) (r : Root) (p : Port) (srcs : List Src) : Res (List (Nat × Nat)) :=
  if p.dir = .out then .ok []
  else (connected whole p srcs).bind fun c =>
    if c.1 then .ok []
    else match undriven p.width c.2 with
      | [] => .ub
      | b :: bs => mapRes (wireZero enum r) (gaps (b :: bs) b b)

/-- A port of a child: its declaration and its place in the list of ports. -/
abbrev PortR := Root × Port

/-- A generator: whether it carries the attribute, and the ports of its children (src/transform.cc:124-147). -/
structure Par where
  attr : Bool
  kidPorts : List PortR

/-- One generator (src/transform.cc:125-222). -/
def zeroPar (enum : VarId → Bool) (whole : Src → Bool) (srcs : Port → List Src) (g : Par) : Res (List (PortR × List (Nat × Nat))) :=
  if g.attr then mapRes (fun p => (zeroPort (enum p.2.var) whole p.1 p.2 (srcs p.2)).bind fun z => .ok (p, z)) g.kidPorts else .ok []

/-! ### Specification -/

/-- Number of the new assignments that drive bit `i`. -/
def newDrivers (zs : List (Nat × Nat)) (i : Nat) : Nat := zs.countP fun z => decide (z.1 ≤ i ∧ i ≤ z.2)

/-- What zeroing a port should do: a driven bit gets nothing, any other bit gets exactly one zero. -/
def Zeroed (stmts : List Src) (p : Port) (zs : List (Nat × Nat)) : Prop :=
  ∀ i, i < p.width → (Driven stmts p i → newDrivers zs i = 0) ∧ (¬ Driven stmts p i → newDrivers zs i = 1)

/-- The port is declared as `r`. -/
def Declared (r : Root) (p : Port) : Prop := r.Ok ∧ p.width = prod r.size * r.w

/-- Full claim of C21: an input of a child is zeroed exactly where it is not driven. -/
def ZeroClaim : Prop := ∀ (enum : Bool) (w : VarId → Nat) (whole : Src → Bool) (stmts srcs : List Src) (r : Root) (p : Port), WholeOk w whole stmts →
  (∀ s ∈ stmts, Simple w s.left) → srcs.Perm (sources stmts p.var) → w p.var = p.width → Declared r p → p.dir = .inp →
  ∃ zs, zeroPort enum whole r p srcs = .ok zs ∧ Zeroed stmts p zs

/-! ### The loop over the gaps -/

/-- Strictly increasing. -/
def Incr : Nat → List Nat → Prop
  | _, [] => True
  | a, b :: bs => a < b ∧ Incr b bs

theorem incr_lt : ∀ {a : Nat} {bs : List Nat}, Incr a bs → ∀ b ∈ bs, a < b
  | _, [], _, _, h => nomatch h
  | a, c :: bs, h, b, hb => by
    rcases List.mem_cons.1 hb with e | hb
    · rw [e]; exact h.1
    · exact Nat.lt_trans h.1 (incr_lt h.2 b hb)

theorem gaps_count : ∀ (bs : List Nat) (low pre : Nat), low ≤ pre → Incr pre bs → ∀ i,
    (gaps bs low pre).countP (fun c => decide (c.2 ≤ i ∧ i ≤ c.1)) = if (low ≤ i ∧ i ≤ pre) ∨ i ∈ bs then 1 else 0
  | [], low, pre, _, _, i => by
    simp [gaps, List.countP_cons]
  | b :: bs, low, pre, hl, hi, i => by
    unfold gaps
    have hb := hi.1
    split
    · rename_i hg
      rw [List.countP_cons, gaps_count bs b b (Nat.le_refl _) hi.2 i]
      have hlt := incr_lt hi.2
      by_cases h1 : low ≤ i ∧ i ≤ pre
      · rw [if_neg (fun h => by
          rcases h with h | h
          · omega
          · have := hlt i h; omega)]
        simp [h1]
      · rw [decide_eq_false h1]
        have : (b ≤ i ∧ i ≤ b ∨ i ∈ bs) ↔ ((low ≤ i ∧ i ≤ pre) ∨ i ∈ b :: bs) := by
          rw [List.mem_cons]
          constructor
          · rintro (h | h)
            · exact .inr (.inl (by omega))
            · exact .inr (.inr h)
          · rintro (h | h | h)
            · exact absurd h h1
            · exact .inl (by omega)
            · exact .inr h
        simp only [this]
        simp
    · rename_i hg
      rw [gaps_count bs low b (by omega) hi.2 i]
      have : (low ≤ i ∧ i ≤ b ∨ i ∈ bs) ↔ ((low ≤ i ∧ i ≤ pre) ∨ i ∈ b :: bs) := by
        rw [List.mem_cons]
        constructor
        · rintro (h | h)
          · by_cases h2 : i ≤ pre
            · exact .inl ⟨h.1, h2⟩
            · exact .inr (.inl (by omega))
          · exact .inr (.inr h)
        · rintro (h | h | h)
          · exact .inl (by omega)
          · exact .inl (by omega)
          · exact .inr h
      simp only [this]

theorem gaps_bounds : ∀ (bs : List Nat) (low pre : Nat), low ≤ pre → Incr pre bs → ∀ c ∈ gaps bs low pre, c.2 ≤ c.1 ∧ (c.1 = pre ∨ c.1 ∈ bs)
  | [], low, pre, hl, _, c, hc => by
    rw [gaps, List.mem_singleton] at hc
    subst hc
    exact ⟨hl, .inl rfl⟩
  | b :: bs, low, pre, hl, hi, c, hc => by
    unfold gaps at hc
    have hb := hi.1
    split at hc
    · rcases List.mem_cons.1 hc with e | hc
      · rw [e]; exact ⟨hl, .inl rfl⟩
      · obtain ⟨h1, h2⟩ := gaps_bounds bs b b (Nat.le_refl _) hi.2 c hc
        refine ⟨h1, .inr ?_⟩
        rcases h2 with h2 | h2
        · rw [h2]; exact List.mem_cons_self ..
        · exact List.mem_cons_of_mem _ h2
    · obtain ⟨h1, h2⟩ := gaps_bounds bs low b (by omega) hi.2 c hc
      refine ⟨h1, .inr ?_⟩
      rcases h2 with h2 | h2
      · rw [h2]; exact List.mem_cons_self ..
      · exact List.mem_cons_of_mem _ h2

theorem incr_range (f : Nat → Bool) : ∀ (n s : Nat) (a : Nat), a < s → Incr a ((List.range' s n).filter f)
  | 0, _, _, _ => trivial
  | n + 1, s, a, h => by
    rw [List.range'_succ, List.filter_cons]
    split
    · exact ⟨h, incr_range f n (s + 1) s (Nat.lt_succ_self s)⟩
    · exact incr_range f n (s + 1) a (by omega)

theorem undriven_incr {w : Nat} {set : List Nat} {b : Nat} {bs : List Nat} (h : undriven w set = b :: bs) : Incr b bs := by
  unfold undriven at h
  rw [List.range_eq_range'] at h
  have key : ∀ (n s : Nat), (List.range' s n).filter (fun i => decide (i ∉ set)) = b :: bs → Incr b bs := by
    intro n
    induction n with
    | zero => intro s h; cases h
    | succ n ih =>
      intro s h
      rw [List.range'_succ, List.filter_cons] at h
      split at h
      · cases h
        exact incr_range _ n (_ + 1) _ (Nat.lt_succ_self _)
      · exact ih (s + 1) h
  exact key w 0 h

theorem mem_undriven {w : Nat} {set : List Nat} {i : Nat} : i ∈ undriven w set ↔ i < w ∧ i ∉ set := by
  simp [undriven, List.mem_filter]

/-! ### The assignments -/

/-- A variable without dimensions, or with one. -/
def Flat (r : Root) : Prop := r.explicit = false ∧ ∃ d, r.size = [d]

theorem width_root {r : Root} (ok : r.Ok) : Slice.width (rootInfo r) = prod r.size * r.w := by
  obtain ⟨i, hi, _, _, hw, _⟩ := Slice.slice_select_partial r ok [] r.region trivial rfl
  have e : rootInfo r = i := by simpa [Slice.selects] using hi
  rw [e, hw, Slice.region_width]

theorem wire_flat {enum : Bool} {r : Root} (ok : r.Ok) (hf : Flat r) {h l : Nat} (hlh : l ≤ h) (hw : h < prod r.size * r.w) {z : Nat × Nat}
    (hz : wireZero enum r (h, l) = .ok z) : z = (l, h) := by
  obtain ⟨hex, d, hd⟩ := hf
  have hwr := width_root ok
  have hwpos := ok.w
  unfold wireZero at hz
  rw [Res.bind_eq_ok] at hz
  obtain ⟨c, hc, hz⟩ := hz
  unfold scale at hc
  split at hc
  · rename_i h1
    cases hc
    unfold wire at hz
    rw [hwr] at hz
    simp only at hz
    split at hz
    · rename_i hall
      split at hz <;> cases hz
      rw [hall.1, hall.2]
    · have hprod : prod r.size = 1 := by rw [h1]; rfl
      have hreg : r.region.sels [(h, l)] = some ⟨0 + l, [], h - l + 1⟩ := by
        have hdim : r.region = ⟨0, [], r.w⟩ := by simp [Slice.Root.region, h1, hex]
        rw [hdim]
        unfold Slice.Region.sels Slice.Region.sel
        rw [if_neg (by omega)]
        simp only
        rw [if_pos (by rw [hprod] at hw; omega)]
        rfl
      obtain ⟨i, hi, h2, h3, _⟩ := Slice.slice_select_partial r ok [(h, l)] _ (by
        refine ⟨fun _ => ?_, fun _ _ => trivial⟩
        simp [Slice.Root.region, h1, hex]) hreg
      simp only [Slice.selects, Res.bind_eq_ok] at hi
      obtain ⟨i', hi, e⟩ := hi
      cases e
      rw [hi] at hz
      cases hz
      rw [h2, h3]
      simp only [Slice.Region.width, prod, List.foldr_nil]
      rw [Prod.mk.injEq]
      omega
  · rename_i h1
    split at hc
    · cases hc
    rename_i hm
    cases hc
    have hm1 : l % r.w = 0 := Classical.byContradiction fun h => hm (.inl h)
    have hm2 : (h + 1) % r.w = 0 := Classical.byContradiction fun h => hm (.inr h)
    obtain ⟨a, ha⟩ := Nat.dvd_of_mod_eq_zero hm1
    obtain ⟨b, hb⟩ := Nat.dvd_of_mod_eq_zero hm2
    have hprod : prod r.size = d := by rw [hd]; simp [prod]
    rw [hprod] at hw
    have hla : l / r.w = a := by rw [ha, Nat.mul_div_cancel_left _ (by omega)]
    have hbpos : 0 < b := by
      rcases Nat.eq_zero_or_pos b with e | e
      · rw [e] at hb; omega
      · exact e
    have hhb : h / r.w = b - 1 := by
      have : h = (r.w - 1) + r.w * (b - 1) := by
        have : r.w * b = r.w * (b - 1) + r.w := by
          obtain ⟨k, rfl⟩ : ∃ k, b = k + 1 := ⟨b - 1, by omega⟩
          rw [Nat.mul_add]; simp
        omega
      rw [this, Nat.add_mul_div_left _ _ (by omega), Nat.div_eq_of_lt (by omega)]
      omega
    have hab : a < b := by
      apply Classical.byContradiction
      intro hn
      have : r.w * b ≤ r.w * a := Nat.mul_le_mul_left _ (by omega)
      omega
    have hbd : b ≤ d := by
      apply Classical.byContradiction
      intro hn
      have : r.w * (d + 1) ≤ r.w * b := Nat.mul_le_mul_left _ (by omega)
      rw [Nat.mul_add, Nat.mul_comm r.w d] at this
      omega
    unfold wire at hz
    rw [hwr, hprod] at hz
    simp only [hla, hhb] at hz
    split at hz
    · rename_i hall
      split at hz <;> cases hz
      have hw1 : r.w = 1 := by
        apply Classical.byContradiction
        intro hne
        have : d * 2 ≤ d * r.w := Nat.mul_le_mul_left _ (by omega)
        omega
      rw [hw1] at ha hb hall ⊢
      rw [Prod.mk.injEq]
      omega
    · have hdim : r.region.dims = [d] := by
        simp only [Slice.Root.region]
        rw [if_neg (fun hh => h1 hh.1), hd]
      have hreg : r.region.sels [(b - 1, a)] = some { r.region with off := 0 + a * (1 * r.w), dims := if b - 1 = a then [] else [b - 1 - a + 1] } := by
        unfold Slice.Region.sels Slice.Region.sel
        rw [if_neg (by omega), hdim]
        simp only
        rw [if_pos (by omega)]
        rfl
      obtain ⟨i, hi, h2, h3, _⟩ := Slice.slice_select_partial r ok [(b - 1, a)] _ (by
        refine ⟨fun _ => ?_, fun _ _ => trivial⟩
        rw [hdim]; simp) hreg
      simp only [Slice.selects, Res.bind_eq_ok] at hi
      obtain ⟨i', hi, e⟩ := hi
      cases e
      rw [hi] at hz
      cases hz
      have hwid : Slice.Region.width { r.region with off := 0 + a * (1 * r.w), dims := if b - 1 = a then [] else [b - 1 - a + 1] } = (b - a) * r.w := by
        simp only [Slice.Region.width]
        have hbits : r.region.bits = r.w := rfl
        rw [hbits]
        split
        · rename_i e
          have : b - a = 1 := by omega
          rw [this]; rfl
        · have : b - 1 - a + 1 = b - a := by omega
          simp [prod, this]
      rw [h2, h3, hwid]
      simp only
      have e1 : a * (1 * r.w) = l := by rw [ha, Nat.one_mul, Nat.mul_comm]
      have e2 : (b - a) * r.w = h + 1 - l := by rw [Nat.sub_mul, Nat.mul_comm b, Nat.mul_comm a, ← ha, ← hb]
      rw [e1, e2, Prod.mk.injEq]
      omega

theorem mapRes_flat {enum : Bool} {r : Root} (ok : r.Ok) (hf : Flat r) : ∀ (cs zs : List (Nat × Nat)), (∀ c ∈ cs, c.2 ≤ c.1 ∧ c.1 < prod r.size * r.w) →
    mapRes (wireZero enum r) cs = .ok zs → zs = cs.map fun c => (c.2, c.1)
  | [], zs, _, h => by
    simp only [mapRes, Res.ok.injEq] at h
    rw [← h]; rfl
  | c :: cs, zs, hb, h => by
    simp only [mapRes, Res.bind_eq_ok, Res.ok.injEq] at h
    obtain ⟨z, hz, zs', hzs, rfl⟩ := h
    have hc := hb c (List.mem_cons_self ..)
    rw [mapRes_flat ok hf cs zs' (fun c hc => hb c (List.mem_cons_of_mem _ hc)) hzs, wire_flat ok hf hc.1 hc.2 hz]
    rfl

/-! ### C21 -/

theorem connected_set {w : VarId → Nat} {whole : Src → Bool} {stmts srcs : List Src} {p : Port} (hok : WholeOk w whole stmts)
    (hs : ∀ s ∈ stmts, Simple w s.left) (hp : srcs.Perm (sources stmts p.var)) (hw : w p.var = p.width) {c : Bool × List Nat}
    (hc : connected whole p srcs = .ok c) : (c.1 = true → ∀ i, i < p.width → Driven stmts p i) ∧
      ∀ i, i < p.width → (i ∈ c.2 ↔ Driven stmts p i) := by
  unfold connected at hc
  rw [Res.bind_eq_ok] at hc
  obtain ⟨q, hq, hc⟩ := hc
  cases hc
  obtain ⟨h1, h2, h3⟩ := loop_ok srcs [] q hq
  have hd : ∀ i, (∃ s ∈ srcs, counted whole p s i) ↔ Driven stmts p i := fun i => by
    rw [driven_iff hp i]
    exact exists_congr fun s => and_congr_right fun hm =>
      have hm' := List.mem_filter.1 (hp.mem_iff.1 hm)
      counted_simple (hs s hm'.1) hw (hok s hm'.1) (of_decide_eq_true hm'.2) i
  have key : ∀ i, i ∈ q.2 → Driven stmts p i := fun i hi => (h1 i hi).elim (fun h => nomatch h) (hd i).1
  refine ⟨fun h i hi => key i (h2 (by simpa using (Bool.and_eq_true_iff.1 h).1) i hi), fun i hi => ⟨key i, fun h => ?_⟩⟩
  cases hb : q.1 with
  | true => exact h2 hb i hi
  | false => exact h3 hb i (.inr ((hd i).2 h))

/-- C21, partial: for a port without dimensions or with one, whenever the pass completes, driven bits get no new driver and
each other bit gets exactly one assignment of zero.
Missing: ports with more dimensions (`nested_array_wrong`), arrays declared with the single element marked explicit, and
that the pass completes (`zero_total`, `driven_by_parts_ub`, `irregular_refused`). -/
theorem zero_exact_partial {enum : Bool} {w : VarId → Nat} {whole : Src → Bool} {stmts srcs : List Src} {r : Root} {p : Port}
    (hok : WholeOk w whole stmts) (hs : ∀ s ∈ stmts, Simple w s.left) (hp : srcs.Perm (sources stmts p.var)) (hw : w p.var = p.width)
    (hdec : Declared r p) (hf : Flat r) (hdir : p.dir ≠ .out) {zs : List (Nat × Nat)} (h : zeroPort enum whole r p srcs = .ok zs) :
    Zeroed stmts p zs := by
  unfold zeroPort at h
  rw [if_neg hdir, Res.bind_eq_ok] at h
  obtain ⟨c, hc, h⟩ := h
  obtain ⟨h1, h2⟩ := connected_set hok hs hp hw hc
  split at h
  · rename_i hct
    cases h
    intro i hi
    exact ⟨fun _ => rfl, fun hn => absurd (h1 hct i hi) hn⟩
  · split at h
    · cases h
    · rename_i b bs hu
      have hincr := undriven_incr hu
      have hmem : ∀ i, i ∈ b :: bs ↔ i < p.width ∧ i ∉ c.2 := fun i => by rw [← hu]; exact mem_undriven
      have hb : b ∈ b :: bs := List.mem_cons_self ..
      -- the first round of the loop sees the first bit again
      have hg : gaps (b :: bs) b b = gaps bs b b := by
        conv => lhs; unfold gaps
        rw [if_neg (by omega)]
      rw [hg] at h
      have hz := mapRes_flat hdec.1 hf _ zs (fun x hx => by
        obtain ⟨g1, g2⟩ := gaps_bounds bs b b (Nat.le_refl _) hincr x hx
        refine ⟨g1, ?_⟩
        rw [← hdec.2]
        rcases g2 with g2 | g2
        · rw [g2]; exact ((hmem b).1 hb).1
        · exact ((hmem _).1 (List.mem_cons_of_mem _ g2)).1) h
      intro i hi
      have hcount : newDrivers zs i = if (b ≤ i ∧ i ≤ b) ∨ i ∈ bs then 1 else 0 := by
        rw [← gaps_count bs b b (Nat.le_refl _) hincr i, hz, newDrivers, List.countP_map]
        rfl
      have hiff : ((b ≤ i ∧ i ≤ b) ∨ i ∈ bs) ↔ i ∉ c.2 := by
        have : ((b ≤ i ∧ i ≤ b) ∨ i ∈ bs) ↔ i ∈ b :: bs := by
          rw [List.mem_cons]
          exact or_congr ⟨fun h => by omega, fun h => by omega⟩ Iff.rfl
        rw [this, hmem]
        exact ⟨fun h => h.2, fun h => ⟨hi, h⟩⟩
      rw [hcount]
      constructor
      · intro hd
        rw [if_neg (fun hh => hiff.1 hh ((h2 i hi).2 hd))]
      · intro hn
        rw [if_pos (hiff.2 (fun hm => hn ((h2 i hi).1 hm)))]

/-- Outputs of the child are left alone. -/
theorem outputs_untouched {enum : Bool} {whole : Src → Bool} {r : Root} {p : Port} {srcs : List Src} (h : p.dir = .out) : zeroPort enum whole r p srcs = .ok [] := by
  simp [zeroPort, h]

/-- The pass completes on a port without dimensions that has an undriven bit; one of an enumeration type must have a driven
bit too (`enum_refused`). -/
theorem zero_total {enum : Bool} {w : VarId → Nat} {whole : Src → Bool} {stmts srcs : List Src} {r : Root} {p : Port}
    (hok : WholeOk w whole stmts) (hs : ∀ s ∈ stmts, Simple w s.left) (hp : srcs.Perm (sources stmts p.var)) (hw : w p.var = p.width)
    (hdec : Declared r p) (h1 : r.size = [1]) (hex : r.explicit = false) {j : Nat} (hj : j < p.width) (hn : ¬ Driven stmts p j)
    (hen : enum = true → ∃ i, i < p.width ∧ Driven stmts p i) :
    ∃ zs, zeroPort enum whole r p srcs = .ok zs := by
  unfold zeroPort
  split
  · exact ⟨_, rfl⟩
  obtain ⟨q, hq⟩ := loop_total (whole := whole) (p := p) srcs [] (fun s hm hsl => by
    have hm' := List.mem_filter.1 (hp.mem_iff.1 hm)
    have hv : p.var ∈ s.left.vars := of_decide_eq_true hm'.2
    have := hs s hm'.1
    cases hl : s.left <;> rw [hl] at hv this <;> simp only [Tgt.vars, List.mem_singleton, Simple] at hv this <;> simp [Tgt.root, hv])
  have hc : connected whole p srcs = .ok (q.1 && decide (q.2.length = p.width), q.2) := by simp only [connected, hq, Res.ok_bind]
  obtain ⟨_, h2⟩ := connected_set hok hs hp hw hc
  rw [hc, Res.ok_bind]
  split
  · exact ⟨_, rfl⟩
  · have hju : j ∈ undriven p.width q.2 := mem_undriven.2 ⟨hj, fun hm => hn ((h2 j hj).1 hm)⟩
    split
    · rename_i hu
      simp only at hu
      rw [hu] at hju; cases hju
    · rename_i b bs hu
      simp only at hu
      have hincr := undriven_incr hu
      have hmem : ∀ i, i ∈ b :: bs ↔ i < p.width ∧ i ∉ q.2 := fun i => by rw [← hu]; exact mem_undriven
      have hg : gaps (b :: bs) b b = gaps bs b b := by
        conv => lhs; unfold gaps
        rw [if_neg (by omega)]
      rw [hg]
      refine Kinds.mapRes_total _ fun c hc => ?_
      obtain ⟨g1, g2⟩ := gaps_bounds bs b b (Nat.le_refl _) hincr c hc
      have hlt : c.1 < p.width := by
        rcases g2 with g2 | g2
        · rw [g2]; exact ((hmem b).1 (List.mem_cons_self ..)).1
        · exact ((hmem _).1 (List.mem_cons_of_mem _ g2)).1
      unfold wireZero scale
      rw [if_pos h1, Res.ok_bind]
      unfold wire
      split
      · rename_i hall
        cases he : enum with
        | false => exact ⟨_, rfl⟩
        | true =>
          -- a port that is not driven at all
          obtain ⟨k, hk, hdk⟩ := hen he
          have hcnt := gaps_count bs b b (Nat.le_refl _) hincr k
          have hknot : ¬ ((b ≤ k ∧ k ≤ b) ∨ k ∈ bs) := by
            intro hh
            have : k ∈ b :: bs := by
              rcases hh with hh | hh
              · rw [show k = b by omega]; exact List.mem_cons_self ..
              · exact List.mem_cons_of_mem _ hh
            exact ((hmem k).1 this).2 ((h2 k hk).2 hdk)
          rw [if_neg hknot, List.countP_eq_zero] at hcnt
          have hno := hcnt c hc
          have hwk : k ≤ c.1 := by
            have hwr := width_root hdec.1
            have := hdec.2
            omega
          exact absurd (decide_eq_true ⟨by omega, hwk⟩) hno
      · have hreg : r.region.sels [(c.1, c.2)] = some ⟨0 + c.2, [], c.1 - c.2 + 1⟩ := by
          have hdim : r.region = ⟨0, [], r.w⟩ := by simp [Slice.Root.region, h1, hex]
          rw [hdim]
          unfold Slice.Region.sels Slice.Region.sel
          rw [if_neg (by omega)]
          simp only
          have hww : r.w = p.width := by rw [hdec.2, h1]; simp [prod]
          rw [if_pos (by rw [hww]; exact hlt)]
          rfl
        obtain ⟨i, hi, _⟩ := Slice.slice_select_partial r hdec.1 [(c.1, c.2)] _ (by
          refine ⟨fun _ => ?_, fun _ _ => trivial⟩
          simp [Slice.Root.region, h1, hex]) hreg
        simp only [Slice.selects, Res.bind_eq_ok] at hi
        obtain ⟨i', hi, e⟩ := hi
        exact ⟨(i'.low, i'.high), by rw [hi]; rfl⟩

/-- Whole generators: a generator with the attribute has all ports of its children zeroed, any other is left alone. -/
theorem zero_generator_partial {w : VarId → Nat} {enum : VarId → Bool} {whole : Src → Bool} {stmts : List Src} {srcs : Port → List Src} {g : Par}
    (hok : WholeOk w whole stmts) (hs : ∀ s ∈ stmts, Simple w s.left) (hp : ∀ p, (srcs p).Perm (sources stmts p.var))
    (hg : ∀ p ∈ g.kidPorts, w p.2.var = p.2.width ∧ Declared p.1 p.2 ∧ Flat p.1) {zs : List (PortR × List (Nat × Nat))}
    (h : zeroPar enum whole srcs g = .ok zs) :
    if g.attr then Kinds.All2 (fun (p : PortR) z => z.1 = p ∧ (p.2.dir = .out → z.2 = []) ∧ (p.2.dir ≠ .out → Zeroed stmts p.2 z.2)) g.kidPorts zs
      else zs = [] := by
  unfold zeroPar at h
  split at h
  · rename_i ha
    rw [if_pos ha]
    have key : ∀ (l : List PortR) (zs : List (PortR × List (Nat × Nat))), (∀ p ∈ l, p ∈ g.kidPorts) →
        mapRes (fun p => (zeroPort (enum p.2.var) whole p.1 p.2 (srcs p.2)).bind fun z => .ok (p, z)) l = .ok zs →
        Kinds.All2 (fun (p : PortR) z => z.1 = p ∧ (p.2.dir = .out → z.2 = []) ∧ (p.2.dir ≠ .out → Zeroed stmts p.2 z.2)) l zs := by
      intro l
      induction l with
      | nil =>
        intro zs _ h
        simp only [mapRes, Res.ok.injEq] at h
        subst h
        exact .nil
      | cons p l ih =>
        intro zs hm h
        simp only [mapRes, Res.bind_eq_ok, Res.ok.injEq] at h
        obtain ⟨z, ⟨z', hz, rfl⟩, zs', hzs, rfl⟩ := h
        have hpg := hg p (hm p (List.mem_cons_self ..))
        refine .cons ⟨rfl, fun hd => ?_, fun hd => ?_⟩ (ih zs' (fun p hp => hm p (List.mem_cons_of_mem _ hp)) hzs)
        · rw [outputs_untouched hd] at hz
          cases hz; rfl
        · exact zero_exact_partial hok hs (hp p.2) hpg.1 hpg.2.1 hpg.2.2 hd hz
    exact key g.kidPorts zs (fun _ h => h) h
  · rename_i ha
    cases h
    rw [if_neg ha]

/-! ### Examples and counterexamples -/

/-- An eight-bit input with bits 1, 2 and 5 driven. -/
def exStmts : List Src := [stmt 0 (.part 0 1 2), stmt 1 (.part 0 5 5)]
example : zeroPort false (fun _ => false) ⟨8, [1], false⟩ ⟨0, 8, .inp⟩ exStmts = .ok [(0, 0), (3, 4), (6, 7)] := by decide +kernel
example : (Root.mk 8 [1] false).Ok ∧ Flat ⟨8, [1], false⟩ ∧ Declared ⟨8, [1], false⟩ ⟨0, 8, .inp⟩ ∧ ∀ s ∈ exStmts, Simple (fun _ => 8) s.left := by
  have ok : (Root.mk 8 [1] false).Ok := ⟨by decide, by decide, by decide, by decide, by decide⟩
  refine ⟨ok, ⟨rfl, 1, rfl⟩, ⟨ok, rfl⟩, fun s hs => ?_⟩
  simp only [exStmts, List.mem_cons, List.not_mem_nil, or_false] at hs
  rcases hs with rfl | rfl <;> trivial
/-- A four-element array of bytes with element 1 driven. -/
example : zeroPort false (fun _ => false) ⟨8, [4], false⟩ ⟨0, 32, .inp⟩ [stmt 0 (.part 0 8 15)] = .ok [(0, 7), (16, 31)] := by decide +kernel

/-- An input that is driven completely, but in parts: undefined behaviour. -/
theorem driven_by_parts_ub : zeroPort false (fun _ => false) ⟨2, [1], false⟩ ⟨0, 2, .inp⟩ [stmt 0 (.part 0 0 0), stmt 1 (.part 0 1 1)] = .ub := by decide +kernel

/-- An array of which only some bits of an element are driven is refused. -/
theorem irregular_refused : zeroPort false (fun _ => false) ⟨8, [4], false⟩ ⟨0, 32, .inp⟩ [stmt 0 (.part 0 0 3)] = .throw .stmt := by decide +kernel

/-- An array of two rows of two bytes with everything but the first byte driven: the whole first row is driven again. -/
theorem nested_array_wrong : zeroPort false (fun _ => false) ⟨8, [2, 2], false⟩ ⟨0, 32, .inp⟩ [stmt 0 (.part 0 8 15), stmt 1 (.part 0 16 31)] = .ok [(0, 15)] := by decide +kernel

theorem not_ZeroClaim : ¬ ZeroClaim := by
  intro h
  obtain ⟨zs, hz, _⟩ := h false (fun _ => 2) (fun _ => false) [stmt 0 (.part 0 0 0), stmt 1 (.part 0 1 1)] [stmt 0 (.part 0 0 0), stmt 1 (.part 0 1 1)]
    ⟨2, [1], false⟩ ⟨0, 2, .inp⟩ (fun _ _ h => nomatch h) (fun s hs => by
      simp only [List.mem_cons, List.not_mem_nil, or_false] at hs
      rcases hs with rfl | rfl <;> trivial) (by decide) rfl ⟨⟨by decide, by decide, by decide, by decide, by decide⟩, rfl⟩ rfl
  rw [driven_by_parts_ub] at hz
  cases hz

/-! ### Stubs -/

/-- A port of a stub: how many statements read and drive it, whether it is signed and whether its type is an
enumeration. -/
structure StubPort where
  port : Port
  sinks : Nat
  srcs : Nat
  signed : Bool
  enum : Bool

/-- A generator as `zero_out_stubs` sees it. -/
structure Stub where
  isStub : Bool
  stmts : Nat
  vars : Nat
  ports : List StubPort

/-- The checks and assignments for one port (src/transform.cc:96-113): the result lists the ports that get an assignment of
zero.  The constant is unsigned and a plain number: a port of an enumeration type refuses it (src/port.cc:136-141), and the
statement refuses different signs (src/stmt.cc:139-144). -/
def stubPorts : List StubPort → Res (List Port)
  | [] => .ok []
  | s :: ps =>
    if s.port.dir = .inp then if s.sinks ≠ 0 then .throw .var else stubPorts ps
    else if s.srcs ≠ 0 then .throw .var
    else if s.enum then .throw .var
    else if s.signed then .throw .var
    else (stubPorts ps).bind fun l => .ok (s.port :: l)

/-- `StubGeneratorVisitor::visit` (src/transform.cc:79-114). The first exception is a `std::runtime_error` whose message has
a placeholder without an argument: the formatting library throws instead, which is an exception either way. -/
def zeroStub (g : Stub) : Res (List Port) :=
  if !g.isStub then .ok []
  else if g.stmts > 0 then .throw .user
  else if g.vars > 0 then .throw .generator
  else stubPorts g.ports

/-- A port of an acceptable stub is not used inside. -/
def StubPort.Idle (s : StubPort) : Prop := if s.port.dir = .inp then s.sinks = 0 else s.srcs = 0

/-- Number 0 can be assigned to the port as it is. -/
def StubPort.Plain (s : StubPort) : Prop := s.port.dir = .inp ∨ (s.signed = false ∧ s.enum = false)

/-- The outputs (and bidirectional ports) of the stub. -/
def outs (ps : List StubPort) : List Port := (ps.map (·.port)).filter fun p => decide (p.dir ≠ .inp)

/-- C21 for stubs in full: exactly the stubs that are empty inside are accepted, and their outputs are driven to zero. -/
def StubClaim : Prop := ∀ g : Stub, g.isStub = true → ∀ l : List Port,
  zeroStub g = .ok l ↔ g.stmts = 0 ∧ g.vars = 0 ∧ (∀ s ∈ g.ports, s.Idle) ∧ l = outs g.ports

theorem stub_ports : ∀ (ps : List StubPort) (l : List Port), stubPorts ps = .ok l ↔
    (∀ s ∈ ps, s.Idle ∧ s.Plain) ∧ l = outs ps
  | [], l => by simp [stubPorts, outs, eq_comm]
  | s :: ps, l => by
    unfold stubPorts
    by_cases hd : s.port.dir = .inp
    · rw [if_pos hd]
      by_cases hs : s.sinks ≠ 0
      · rw [if_pos hs]
        refine ⟨nofun, fun h => absurd ?_ hs⟩
        have := (h.1 s (List.mem_cons_self ..)).1
        unfold StubPort.Idle at this
        rwa [if_pos hd] at this
      · rw [if_neg hs, stub_ports ps l]
        have hout : outs (s :: ps) = outs ps := by simp [outs, hd]
        rw [hout]
        refine and_congr_left fun _ => ⟨fun h q hq => ?_, fun h q hq => h q (List.mem_cons_of_mem _ hq)⟩
        rcases List.mem_cons.1 hq with rfl | hq
        · refine ⟨?_, Or.inl hd⟩
          unfold StubPort.Idle
          rw [if_pos hd]
          exact Classical.not_not.1 hs
        · exact h q hq
    · rw [if_neg hd]
      have bad : ∀ {e : Err} {q : Prop}, ¬ (s.Idle ∧ s.Plain) →
          ((Res.throw e : Res (List Port)) = .ok l ↔ (∀ s' ∈ s :: ps, s'.Idle ∧ s'.Plain) ∧ l = outs (s :: ps)) :=
        fun hb => ⟨nofun, fun h => absurd (h.1 s (List.mem_cons_self ..)) hb⟩
      by_cases hs : s.srcs ≠ 0
      · rw [if_pos hs]
        refine bad (q := True) fun h => hs ?_
        have := h.1
        unfold StubPort.Idle at this
        rwa [if_neg hd] at this
      rw [if_neg hs]
      by_cases he : s.enum
      · rw [if_pos he]
        exact bad (q := True) fun h => h.2.elim hd fun h => by rw [he] at h; exact nomatch h.2
      rw [if_neg he]
      by_cases hg : s.signed
      · rw [if_pos hg]
        exact bad (q := True) fun h => h.2.elim hd fun h => by rw [hg] at h; exact nomatch h.1
      rw [if_neg hg, Res.bind_eq_ok]
      have hout : outs (s :: ps) = s.port :: outs ps := by simp [outs, hd]
      rw [hout]
      constructor
      · rintro ⟨l', hl', h⟩
        cases h
        obtain ⟨h1, h2⟩ := (stub_ports ps l').1 hl'
        refine ⟨fun q hq => ?_, by rw [h2]⟩
        rcases List.mem_cons.1 hq with rfl | hq
        · refine ⟨?_, Or.inr ⟨by simpa using hg, by simpa using he⟩⟩
          unfold StubPort.Idle
          rw [if_neg hd]
          exact Classical.not_not.1 hs
        · exact h1 q hq
      · rintro ⟨h1, h2⟩
        exact ⟨outs ps, (stub_ports ps _).2 ⟨fun q hq => h1 q (List.mem_cons_of_mem _ hq), rfl⟩, by rw [h2]⟩

/-- C21 for stubs, partial: a stub is accepted exactly if it has no statements, no variables, no driven outputs and no
read inputs, and if no output is signed or of an enumeration type; then exactly its outputs (and bidirectional ports) are
driven to zero, each once; other generators are left alone.
Missing, because false: signed outputs and outputs of enumeration types (`signed_stub_refused`, `enum_stub_refused`). -/
theorem stub_zeroed_partial (g : Stub) (l : List Port) :
    (g.isStub = false → (zeroStub g = .ok l ↔ l = [])) ∧
    (g.isStub = true → (zeroStub g = .ok l ↔
      g.stmts = 0 ∧ g.vars = 0 ∧ (∀ s ∈ g.ports, s.Idle ∧ s.Plain) ∧ l = outs g.ports)) := by
  unfold zeroStub
  constructor
  · intro hs
    rw [hs]
    exact ⟨fun h => by cases h; rfl, fun h => by rw [h]; rfl⟩
  · intro hs
    rw [hs, if_neg (by decide)]
    by_cases h1 : g.stmts > 0
    · rw [if_pos h1]
      exact ⟨nofun, fun h => absurd h.1 (by omega)⟩
    rw [if_neg h1]
    by_cases h2 : g.vars > 0
    · rw [if_pos h2]
      exact ⟨nofun, fun h => absurd h.2.1 (by omega)⟩
    rw [if_neg h2, stub_ports]
    exact ⟨fun h => ⟨by omega, by omega, h⟩, fun h => h.2.2⟩

example : zeroStub ⟨true, 0, 0, [⟨⟨0, 8, .inp⟩, 0, 1, true, false⟩, ⟨⟨1, 8, .out⟩, 2, 0, false, false⟩]⟩ = .ok [⟨1, 8, .out⟩] := by decide

/-- A stub with a signed output cannot be generated. -/
theorem signed_stub_refused : zeroStub ⟨true, 0, 0, [⟨⟨0, 8, .out⟩, 0, 0, true, false⟩]⟩ = .throw .var := by decide

/-- Nor can one with an output of an enumeration type. -/
theorem enum_stub_refused : zeroStub ⟨true, 0, 0, [⟨⟨0, 2, .out⟩, 0, 0, false, true⟩]⟩ = .throw .var := by decide

theorem not_StubClaim : ¬ StubClaim := by
  intro h
  have := (h ⟨true, 0, 0, [⟨⟨0, 8, .out⟩, 0, 0, true, false⟩]⟩ rfl _).2 ⟨rfl, rfl, by
    intro s hs
    rw [List.mem_singleton] at hs
    subst hs
    rfl, rfl⟩
  rw [signed_stub_refused] at this
  cases this

/-- An unconnected input of an enumeration type is refused instead of being zeroed. -/
theorem enum_refused : zeroPort true (fun _ => false) ⟨2, [1], false⟩ ⟨0, 2, .inp⟩ [] = .throw .var := by decide +kernel

end Kratos.Zero
