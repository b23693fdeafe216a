import Verif.Width.Spec

namespace Kratos.Width

def upd (f : Nat → Nat) (k w : Nat) : Nat → Nat := fun j => if j = k then w else f j

theorem upd_self (f : Nat → Nat) (k w : Nat) : upd f k w k = w := by simp [upd]
theorem upd_ne (f : Nat → Nat) {k w j : Nat} (hne : j ≠ k) : upd f k w j = f j := by simp [upd, hne]

/-- What the width assignment `f` must say about node `i`. -/
def Local (f : Nat → Nat) (i : Nat) : Node → Prop
  | .base w _ | .const _ w _ | .param _ w _ => f i = w
  | .cast _ w | .extend _ w _ => f i = w
  | .dup x n _ _ => f i = n * f x
  | .concat vs w _ => f i = w ∧ w = (vs.map f).sum
  | .op o l none _ _ => f i = if isRelational o || isReduction o then 1 else f l
  | .op o l (some r) _ _ => f l = f r ∧ f i = if isRelational o || isReduction o then 1 else f l

def Inv (h : Heap) (f : Nat → Nat) : Prop :=
  ∀ i nd, h[i]? = some nd → (∀ k ∈ nd.operands, k < i) ∧ Local f i nd

theorem Local.congr {f g : Nat → Nat} {i : Nat} {nd : Node} (hi : f i = g i)
    (ho : ∀ k ∈ nd.operands, f k = g k) : Local f i nd → Local g i nd := by
  cases nd with
  | base | const | param | cast | extend => simp only [Local]; omega
  | dup x n vw s =>
    simp only [Local, Node.operands, List.mem_singleton, forall_eq] at *
    rw [← hi, ← ho]; exact id
  | concat vs w s =>
    simp only [Local, Node.operands] at *
    rw [← hi, List.map_congr_left ho]; exact id
  | op o l r vw s =>
    cases r with
    | none =>
      simp only [Local, Node.operands, List.mem_singleton, forall_eq] at *
      rw [← hi, ← ho]; exact id
    | some r =>
      simp only [Local, Node.operands] at *
      have h1 := ho l (by simp)
      have h2 := ho r (by simp)
      rw [← hi, ← h1, ← h2]; exact id

theorem lt_of_get {h : Heap} {i : Nat} {nd : Node} (hg : h[i]? = some nd) : i < h.length := by
  exact (List.getElem?_eq_some_iff.mp hg).1

theorem Inv.append {h : Heap} {f : Nat → Nat} (hi : Inv h f) {nd : Node} {w : Nat}
    (hop : ∀ k ∈ nd.operands, k < h.length) (hl : Local (upd f h.length w) h.length nd) :
    Inv (h ++ [nd]) (upd f h.length w) := by
  intro i x hx
  rcases Nat.lt_trichotomy i h.length with hlt | heq | hgt
  · rw [List.getElem?_append_left hlt] at hx
    obtain ⟨h1, h2⟩ := hi i x hx
    refine ⟨h1, Local.congr ?_ ?_ h2⟩
    · rw [upd_ne]; omega
    · intro k hk
      have := h1 k hk
      rw [upd_ne]; omega
  · subst heq
    simp at hx
    subst hx
    exact ⟨hop, hl⟩
  · rw [List.getElem?_eq_none (by simp; omega)] at hx
    simp at hx

theorem Inv.setConst {h : Heap} {f : Nat → Nat} (hi : Inv h f) {k : Nat} {v : Int} {w w' : Nat}
    {s : Bool} (hk : h[k]? = some (.const v w s)) (hu : Unused h k) :
    Inv (h.set k (.const v w' s)) (upd f k w') := by
  intro i x hx
  rcases Decidable.em (i = k) with heq | hne
  · subst heq
    rw [List.getElem?_set_self (lt_of_get hk)] at hx
    simp only [Option.some.injEq] at hx
    subst hx
    simp [Node.operands, Local, upd_self]
  · rw [List.getElem?_set_ne (by omega)] at hx
    obtain ⟨h1, h2⟩ := hi i x hx
    refine ⟨h1, Local.congr ?_ ?_ h2⟩
    · rw [upd_ne]; exact hne
    · intro j hj
      rw [upd_ne]
      intro hjk
      subst hjk
      exact hu x (List.mem_of_getElem? hx) hj

theorem Inv.width {h : Heap} {f : Nat → Nat} (hi : Inv h f) :
    ∀ n i, i < n → i < h.length → Width.width n h i = .ok (f i) := by
  intro n
  induction n with
  | zero => intro i hin; omega
  | succ n ih =>
    intro i hin hil
    obtain ⟨nd, hnd⟩ : ∃ nd, h[i]? = some nd := ⟨h[i], by simp [hil]⟩
    obtain ⟨h1, h2⟩ := hi i nd hnd
    unfold Width.width
    rw [hnd]
    cases nd with
    | base | const | param | cast | extend => simp only [Local] at h2; simp [h2]
    | dup x c vw s =>
      have := h1 x (by simp [Node.operands])
      simp only [Local] at h2
      simp only [ih x (by omega) (by omega), Res.ok_bind, h2]
    | concat vs w s => simp only [Local] at h2; simp [h2.1]
    | op o l r vw s =>
      cases r with
      | none =>
        have := h1 l (by simp [Node.operands])
        simp only [Local] at h2
        simp only [ih l (by omega) (by omega), h2]
        split <;> rfl
      | some r =>
        have hl := h1 l (by simp [Node.operands])
        have hr := h1 r (by simp [Node.operands])
        simp only [Local] at h2
        simp only [ih l (by omega) (by omega), ih r (by omega) (by omega), h2, Res.ok_bind]
        split <;> simp

theorem Inv.W {h : Heap} {f : Nat → Nat} (hi : Inv h f) {i : Nat} (hl : i < h.length) :
    Width.W h i = .ok (f i) := hi.width _ _ (by omega) hl

theorem W_lt {h : Heap} {i w : Nat} (hw : W h i = .ok w) : i < h.length := by
  rcases Nat.lt_or_ge i h.length with hl | hl
  · exact hl
  · unfold W Width.width at hw
    rw [List.getElem?_eq_none hl] at hw
    cases hw

theorem Inv.W_eq {h : Heap} {f : Nat → Nat} (hi : Inv h f) {i w : Nat} (hw : Width.W h i = .ok w) :
    i < h.length ∧ f i = w := by
  have hl := W_lt hw
  rw [hi.W hl] at hw
  exact ⟨hl, by simpa using hw⟩

/-- One of the two widths decides; the other operand is brought to it. -/
theorem plan_spec {h : Heap} {o : Op} {l r : Nat} {p : Plan} (hp : plan h o l r = .ok p) :
    ∃ wl wr, W h l = .ok wl ∧ W h r = .ok wr ∧
      ((p = .keep ∧ wl = wr) ∨ p = .left wr ∨ p = .right wl ∨ p = .reject) := by
  unfold plan at hp
  simp only [Res.bind_eq_ok] at hp
  obtain ⟨wl, hwl, wr, hwr, hp⟩ := hp
  refine ⟨wl, wr, hwl, hwr, ?_⟩
  split at hp
  · cases hp; simp
  · split at hp
    · rename_i heq; cases hp; simp [heq]
    · simp only [Res.bind_eq_ok] at hp
      obtain ⟨sl, _, hp⟩ := hp
      split at hp
      · cases hp; simp
      · simp only [Res.bind_eq_ok] at hp
        obtain ⟨sr, _, hp⟩ := hp
        split at hp <;> cases hp <;> simp

/-- Resizing an operand keeps the invariant and gives it the target width; the other objects
keep their widths. -/
theorem Inv.resize {h : Heap} {f : Nat → Nat} (hi : Inv h f) {i w : Nat} (hl : i < h.length)
    (hu : isConst h i = true → Unused h i) :
    ∃ f', Inv (resizeVar h i w).1 f' ∧ (resizeVar h i w).2 < (resizeVar h i w).1.length ∧
      h.length ≤ (resizeVar h i w).1.length ∧
      f' (resizeVar h i w).2 = w ∧ ∀ j, j < h.length → j ≠ i → f' j = f j := by
  obtain ⟨nd, hnd⟩ : ∃ nd, h[i]? = some nd := ⟨h[i], by simp [hl]⟩
  have hcast : Inv (h ++ [.cast i w]) (upd f h.length w) :=
    hi.append (by simp [Node.operands, hl]) (by simp [Local, upd_self])
  cases nd with
  | const v w0 s =>
    refine ⟨upd f i w, ?_⟩
    simp only [resizeVar, hnd]
    refine ⟨hi.setConst hnd (hu (by simp [isConst, hnd])), by simpa using hl, by simp, upd_self .., ?_⟩
    intro j _ hne
    exact upd_ne f hne
  | _ =>
    refine ⟨upd f h.length w, ?_⟩
    simp only [resizeVar, hnd]
    refine ⟨hcast, by simp, by simp, upd_self .., ?_⟩
    intro j hj _
    exact upd_ne f (by omega)

theorem Inv.op {h : Heap} {f : Nat → Nat} (hi : Inv h f) {o : Op} {l r vw : Nat} {s : Bool}
    (hl : l < h.length) (hr : r < h.length) (hw : f l = f r) :
    ∃ f', Inv (h ++ [.op o l (some r) vw s]) f' := by
  refine ⟨upd f h.length (if isRelational o || isReduction o then 1 else f l), hi.append ?_ ?_⟩
  · intro k hk
    simp only [Node.operands, List.mem_cons, List.not_mem_nil, or_false] at hk
    rcases hk with rfl | rfl <;> assumption
  · simp only [Local, upd_self]
    rw [upd_ne f (show l ≠ h.length by omega), upd_ne f (show r ≠ h.length by omega)]
    exact ⟨hw, rfl⟩

theorem plan_same {h : Heap} {o : Op} {l : Nat} {p : Plan} (hp : plan h o l l = .ok p) : p = .keep := by
  unfold plan at hp
  simp only [Res.bind_eq_ok] at hp
  obtain ⟨wl, hwl, wr, hwr, hp⟩ := hp
  rw [hwl] at hwr
  cases hwr
  simpa using hp.symm

theorem Inv.call {h : Heap} {f : Nat → Nat} (hi : Inv h f) {c : Call} {h' : Heap} {i : Nat}
    (hc : Width.call h c = .ok (h', i)) (hu : ∀ k, resizes h c = some k → Unused h k) :
    ∃ f', Inv h' f' := by
  cases c with
  | base w s =>
    simp only [Width.call, Res.ok.injEq, Prod.mk.injEq] at hc
    rw [← hc.1]
    exact ⟨_, hi.append (w := w) (by simp [Node.operands]) (by simp [Local, upd_self])⟩
  | const v w s =>
    simp only [Width.call, Res.ok.injEq, Prod.mk.injEq] at hc
    rw [← hc.1]
    exact ⟨_, hi.append (w := w) (by simp [Node.operands]) (by simp [Local, upd_self])⟩
  | param v w s =>
    simp only [Width.call, Res.ok.injEq, Prod.mk.injEq] at hc
    rw [← hc.1]
    exact ⟨_, hi.append (w := w) (by simp [Node.operands]) (by simp [Local, upd_self])⟩
  | un o l =>
    simp only [Width.call, mkUn, Res.bind_eq_ok, Res.ok.injEq, Prod.mk.injEq] at hc
    obtain ⟨vw, hvw, hc, _⟩ := hc
    rw [← hc]
    have hl : l < h.length := by
      rcases Nat.lt_or_ge l h.length with hl | hl
      · exact hl
      · unfold varWidth at hvw
        rw [List.getElem?_eq_none hl] at hvw
        cases hvw
    refine ⟨_, hi.append (w := if isRelational o || isReduction o then 1 else f l)
      (by simp [Node.operands, hl]) ?_⟩
    simp only [Local, upd_self]
    rw [upd_ne f (show l ≠ h.length by omega)]
  | concat a b =>
    simp only [Width.call, mkConcat, Res.bind_eq_ok] at hc
    obtain ⟨wa, hwa, wb, hwb, hc⟩ := hc
    split at hc
    · cases hc
    · simp only [Res.ok.injEq, Prod.mk.injEq] at hc
      rw [← hc.1]
      obtain ⟨hal, hfa⟩ := hi.W_eq hwa
      obtain ⟨hbl, hfb⟩ := hi.W_eq hwb
      have key : ∀ vs : List Nat, (∀ v ∈ vs, v < h.length) → (vs.map f).sum = wa + wb →
          ∃ f', Inv (h ++ [.concat vs (wa + wb) (sgn h a)]) f' := by
        intro vs hvs hsum
        refine ⟨_, hi.append (w := wa + wb) hvs ?_⟩
        simp only [Local, upd_self, true_and]
        rw [← hsum]
        congr 1
        apply List.map_congr_left
        intro v hv
        have := hvs v hv
        exact (upd_ne f (by omega)).symm
      have hpair : ∀ v ∈ [a, b], v < h.length := by
        intro v hv
        simp only [List.mem_cons, List.not_mem_nil, or_false] at hv
        rcases hv with rfl | rfl <;> assumption
      obtain ⟨nd, hnd⟩ : ∃ nd, h[a]? = some nd := ⟨h[a], by simp [hal]⟩
      obtain ⟨h1, h2⟩ := hi a nd hnd
      cases nd with
      | concat vs w s =>
        simp only [hnd]
        simp only [Local] at h2
        apply key
        · intro v hv
          simp only [List.mem_append, List.mem_singleton] at hv
          rcases hv with hv | rfl
          · have := h1 v hv; omega
          · exact hbl
        · simp [← h2.2, ← h2.1, hfa, hfb]
      | _ =>
        simp only [hnd]
        exact key _ hpair (by simp [hfa, hfb])
  | extend a w =>
    simp only [Width.call, mkExtend, Res.bind_eq_ok] at hc
    obtain ⟨wa, hwa, hc⟩ := hc
    split at hc
    · cases hc
    · simp only [Res.ok.injEq, Prod.mk.injEq] at hc
      rw [← hc.1]
      have := W_lt hwa
      exact ⟨_, hi.append (w := w) (by simp [Node.operands, this]) (by simp [Local, upd_self])⟩
  | dup a n =>
    simp only [Width.call, mkDup, Res.bind_eq_ok, Res.ok.injEq, Prod.mk.injEq] at hc
    obtain ⟨wa, hwa, hc, _⟩ := hc
    rw [← hc]
    have hl := W_lt hwa
    refine ⟨_, hi.append (w := n * f a) (by simp [Node.operands, hl]) ?_⟩
    simp only [Local, upd_self]
    rw [upd_ne f (by omega)]
  | bin o l r =>
    simp only [Width.call, mkBin, Res.bind_eq_ok] at hc
    obtain ⟨p, hp, hc⟩ := hc
    obtain ⟨wl, wr, hwl, hwr, hcase⟩ := plan_spec hp
    obtain ⟨hll, hfl⟩ := hi.W_eq hwl
    obtain ⟨hrl, hfr⟩ := hi.W_eq hwr
    rcases hcase with ⟨rfl, heq⟩ | rfl | rfl | rfl
    · simp only [reduceCtorEq, if_false, Res.bind_eq_ok, Res.ok.injEq, Prod.mk.injEq] at hc
      obtain ⟨vw, _, hc, _⟩ := hc
      rw [← hc]
      exact hi.op hll hrl (by omega)
    · have hne : l ≠ r := by
        intro h; subst h; cases plan_same hp
      obtain ⟨f', hi', hlt, hle, hw, hoth⟩ := hi.resize (w := wr) hll (fun hcst => hu l (by
        simp [resizes, hp, hcst]))
      simp only [reduceCtorEq, if_false, Res.bind_eq_ok, Res.ok.injEq, Prod.mk.injEq] at hc
      obtain ⟨vw, _, hc, _⟩ := hc
      rw [← hc]
      refine hi'.op hlt (by omega) ?_
      rw [hw, hoth r hrl (by omega), hfr]
    · have hne : r ≠ l := by
        intro h; subst h; cases plan_same hp
      obtain ⟨f', hi', hlt, hle, hw, hoth⟩ := hi.resize (w := wl) hrl (fun hcst => hu r (by
        simp [resizes, hp, hcst]))
      simp only [reduceCtorEq, if_false, Res.bind_eq_ok, Res.ok.injEq, Prod.mk.injEq] at hc
      obtain ⟨vw, _, hc, _⟩ := hc
      rw [← hc]
      refine hi'.op (by omega) hlt ?_
      rw [hw, hoth l hll (by omega), hfl]
    · simp at hc

theorem Built.inv {h : Heap} (hb : Built h) : ∃ f, Inv h f := by
  induction hb with
  | nil => exact ⟨fun _ => 0, by intro i nd h; simp at h⟩
  | step _ hc hu ih =>
    obtain ⟨f, hf⟩ := ih
    exact hf.call hc hu

/-- The width assignment is the SystemVerilog width, when logical operators see one bit. -/
theorem Inv.sv {h : Heap} {f : Nat → Nat} (hi : Inv h f) (hlog : LogicalOk h) :
    ∀ n i, i < n → i < h.length → SV h i (f i) := by
  intro n
  induction n with
  | zero => intro i hin; omega
  | succ n ih =>
    intro i hin hil
    obtain ⟨nd, hnd⟩ : ∃ nd, h[i]? = some nd := ⟨h[i], by simp [hil]⟩
    obtain ⟨h1, h2⟩ := hi i nd hnd
    cases nd with
    | base w s => simp only [Local] at h2; rw [h2]; exact .base hnd
    | const v w s => simp only [Local] at h2; rw [h2]; exact .const hnd
    | param v w s => simp only [Local] at h2; rw [h2]; exact .param hnd
    | cast x w => simp only [Local] at h2; rw [h2]; exact .cast hnd
    | extend x w s => simp only [Local] at h2; rw [h2]; exact .extend hnd
    | dup x c vw s =>
      have := h1 x (by simp [Node.operands])
      simp only [Local] at h2
      rw [h2]
      exact .dup hnd (ih x (by omega) (by omega))
    | concat vs w s =>
      simp only [Local] at h2
      rw [h2.1, h2.2]
      refine .concat f hnd (fun v hv => ?_)
      have := h1 v (by simpa [Node.operands] using hv)
      exact ih v (by omega) (by omega)
    | op o l r vw s =>
      have hl := h1 l (by cases r <;> simp [Node.operands])
      have ihl := ih l (by omega) (by omega)
      rcases Decidable.em (isRelational o = true ∨ isReduction o = true) with hone | hone
      · have : f i = 1 := by cases r <;> simp only [Local] at h2 <;> simp [h2, hone]
        rw [this]
        exact .one hnd (by cases o <;> simp_all [isRelational, isReduction, oneBit])
      · have hfi : f i = f l := by cases r <;> simp only [Local] at h2 <;> simp [h2, hone]
        rcases Decidable.em (o = .land ∨ o = .lor) with hlo | hlo
        · have := hi.W_eq (hlog i o l r vw s hnd hlo)
          rw [hfi, this.2]
          exact .one hnd (by rcases hlo with rfl | rfl <;> rfl)
        · have hob : oneBit o = false := by cases o <;> simp_all [isRelational, isReduction, oneBit]
          rw [hfi]
          cases r with
          | none => exact .unary hnd hob ihl
          | some r =>
            have hr := h1 r (by simp [Node.operands])
            have ihr := ih r (by omega) (by omega)
            simp only [Local] at h2
            cases hlo' : leftOnly o with
            | true => exact .shift hnd hlo' ihl
            | false =>
              have := SV.arith hnd hob hlo' ihl ihr
              rwa [← h2.1, Nat.max_self] at this

/-- A one-bit operator has no other SystemVerilog width. -/
theorem SV.one_eq {h : Heap} {i w : Nat} {o : Op} {l : Nat} {r : Option Nat} {vw : Nat} {s : Bool}
    (hsv : SV h i w) (hn : h[i]? = some (.op o l r vw s)) (ho : oneBit o = true) : w = 1 := by
  cases hsv with
  | base h | const h | param h | cast h | extend h | dup h _ | concat _ h _ => rw [hn] at h; cases h
  | one h _ => rfl
  | unary h hob _ => rw [hn] at h; cases h; rw [ho] at hob; cases hob
  | shift h hlo _ => rw [hn] at h; cases h; cases o <;> simp_all [oneBit, leftOnly]
  | arith h hob _ _ _ => rw [hn] at h; cases h; rw [ho] at hob; cases hob

theorem varWidth_ok {h : Heap} {i : Nat} (hi : i < h.length) : ∃ w, varWidth h i = .ok w := by
  unfold varWidth
  obtain ⟨nd, hnd⟩ : ∃ nd, h[i]? = some nd := ⟨h[i], by simp [hi]⟩
  rw [hnd]
  cases nd <;> exact ⟨_, rfl⟩

theorem resizeVar_length (h : Heap) (i w : Nat) : h.length ≤ (resizeVar h i w).1.length := by
  unfold resizeVar
  split <;> simp

/-- The node `mkBin` appends, from the resizing decision. -/
theorem mkBin_eq {h : Heap} {o : Op} {l r : Nat} {p : Plan} (hp : plan h o l r = .ok p)
    (hne : p ≠ .reject) (hl : l < h.length) :
    ∃ g l' r' vw s, mkBin h o l r = .ok (g ++ [.op o l' (some r') vw s], g.length) ∧
      (match p with
        | .left w => g = (resizeVar h l w).1 ∧ l' = (resizeVar h l w).2 ∧ r' = r
        | .right w => g = (resizeVar h r w).1 ∧ l' = l ∧ r' = (resizeVar h r w).2
        | _ => g = h ∧ l' = l ∧ r' = r) := by
  unfold mkBin
  rw [hp]
  cases p with
  | reject => exact absurd rfl hne
  | keep =>
    obtain ⟨vw, hvw⟩ := varWidth_ok hl
    simp only [Res.ok_bind, reduceCtorEq, if_false, hvw]
    exact ⟨h, l, r, _, _, rfl, rfl, rfl, rfl⟩
  | left w =>
    obtain ⟨vw, hvw⟩ := varWidth_ok (Nat.lt_of_lt_of_le hl (resizeVar_length h l w))
    simp only [Res.ok_bind, reduceCtorEq, if_false, hvw]
    exact ⟨_, _, _, _, _, rfl, rfl, rfl, rfl⟩
  | right w =>
    obtain ⟨vw, hvw⟩ := varWidth_ok (Nat.lt_of_lt_of_le hl (resizeVar_length h r w))
    simp only [Res.ok_bind, reduceCtorEq, if_false, hvw]
    exact ⟨_, _, _, _, _, rfl, rfl, rfl, rfl⟩

theorem Fits.mono {v : Int} {w w' : Nat} {s : Bool} (hf : Fits v w s) (hw : w ≤ w') : Fits v w' s := by
  unfold Fits at *
  have h1 : (2 : Nat) ^ (w - 1) ≤ 2 ^ (w' - 1) := Nat.pow_le_pow_right (by omega) (by omega)
  have h2 : (2 : Nat) ^ w ≤ 2 ^ w' := Nat.pow_le_pow_right (by omega) hw
  split at hf
  · rename_i hs; rw [if_pos hs]; omega
  · rename_i hs; rw [if_neg hs]; omega

/-- An operand brought to a width at least its own keeps its bits. -/
theorem Preserved.resize {h : Heap} {i w wi : Nat} (nd : Node) (hw : W h i = .ok wi) (hle : wi ≤ w) :
    Preserved h ((resizeVar h i w).1 ++ [nd]) i (resizeVar h i w).2 := by
  have hl := W_lt hw
  obtain ⟨x, hx⟩ : ∃ nd, h[i]? = some nd := ⟨h[i], by simp [hl]⟩
  have hcast : x.operands = x.operands → (∀ v w s, x ≠ .const v w s) →
      (h ++ [Node.cast i w] ++ [nd])[h.length]? = some (.cast i w) := by
    intro _ _
    rw [List.getElem?_append_left (by simp)]
    simp
  cases x with
  | const v w0 s =>
    simp only [Preserved, hx, resizeVar]
    refine ⟨w, ?_, ?_⟩
    · rw [List.getElem?_append_left (by simpa using hl)]
      simp [hl]
    · intro hf
      unfold W width at hw
      rw [hx] at hw
      simp only [Res.ok.injEq] at hw
      exact hf.mono (by omega)
  | _ =>
    simp only [Preserved, hx, resizeVar]
    exact .inr ⟨wi, w, hw, hcast rfl (by simp), hle⟩

theorem Preserved.other {h : Heap} {i j w : Nat} (nd : Node) (hj : j < h.length) (hne : j ≠ i) :
    Preserved h ((resizeVar h i w).1 ++ [nd]) j j := by
  have hget : ((resizeVar h i w).1 ++ [nd])[j]? = h[j]? := by
    rw [List.getElem?_append_left (Nat.lt_of_lt_of_le hj (resizeVar_length h i w))]
    unfold resizeVar
    split
    · simp only []
      rw [List.getElem?_set_ne (by omega)]
    · simp only []
      rw [List.getElem?_append_left hj]
  unfold Preserved
  split
  · rename_i v w s hx
    exact ⟨w, by rw [hget, hx], id⟩
  · exact .inl ⟨rfl, hget⟩

theorem Preserved.keep {h : Heap} {j : Nat} (nd : Node) (hj : j < h.length) :
    Preserved h (h ++ [nd]) j j := by
  have hget : (h ++ [nd])[j]? = h[j]? := List.getElem?_append_left hj
  unfold Preserved
  split
  · rename_i v w s hx
    exact ⟨w, by rw [hget, hx], id⟩
  · exact .inl ⟨rfl, hget⟩

end Kratos.Width
