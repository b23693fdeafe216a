import Verif.Pass.Decouple

/-!
# Inputs of instances read in the parent (property C77)

Models `port_legality_fix` (`PortLegalityFixVisitor`, src/transform.cc:704-763): a statement of the parent that reads an input port of
an instance, which Verilog does not allow, is made to read what the port is connected to.  Statements and expressions are those of
`Verif.Pass.Decouple` and `Verif.Pass.Replace`.

Simplification: an input has a list of sources, of which the pass takes the first it meets (`*sources.begin()` of an unordered set); the
list is in that order.
-/

namespace Kratos.Legal

open Kratos.Replace Kratos.Decouple

/-! ### Model -/

/-- The body of the loop over the readers of port `q`, src/transform.cc:713-749, on a statement of the parent, with `n` the source.  What
is not an expression is replaced as a whole.  A stand-in of an `if` or `case` belongs to the generator of what is tested; if that is not
the child, only the stand-in is changed (725, 746). -/
def fixOne (I : Info) (q : Nat) (n : E) (s : Asn) : Asn :=
  if q ∈ s.snk then
    if s.right.isExpr then { s with right := chg q n .operand s.right, shown := chg q n .operand s.right }
    else { s with right := n, shown := if s.kind = .assign ∨ genOf I s.right = some (I.gen q) then n else s.shown }
  else s

/-- One input port, src/transform.cc:709-750: without a source nothing is done; the source has to be the parent's (718-719). -/
def fixPort (I : Info) (q : Nat) (srcs : List E) (ss : List Asn) : Res (List Asn) :=
  if ss.any (fun s => decide (q ∈ s.snk)) = true then
    match srcs with
    | [] => .ok ss
    | n :: _ => if genOf I n = some 0 then .ok (ss.map (fixOne I q n)) else .throw .user
  else .ok ss

/-- All input ports of the children. -/
def fix (I : Info) : List (Nat × List E) → List Asn → Res (List Asn)
  | [], ss => .ok ss
  | (q, srcs) :: ps, ss => (fixPort I q srcs ss).bind fun ss' => fix I ps ss'

/-! ### Specification -/

/-- The connections of the instances: every input has the value of each of its sources. -/
def Driven {V : Type} (O : Ops V) (ρ : Nat → V) (ps : List (Nat × List E)) : Prop := ∀ p ∈ ps, ∀ e ∈ p.2, ρ p.1 = ev O ρ e

/-- Full claim: when the pass accepts a design, the statements say the same as before under the connections, and read no input of an
instance that has a source. -/
def LegalClaim : Prop := ∀ (I : Info) (ps : List (Nat × List E)) (ss ss' : List Asn), Start ss → fix I ps ss = .ok ss' →
  (∀ {V : Type} (O : Ops V) (B : List (V × V) → Prop) (ρ : Nat → V), Driven O ρ ps → (Holds O B ρ ss ↔ Holds O B ρ ss')) ∧
  ∀ p ∈ ps, p.2 ≠ [] → ∀ s ∈ ss', ¬ Mentions p.1 s.shown

/-- The statements that read an input read it by itself or have an operator on the right. -/
def Direct (ps : List (Nat × List E)) (ss : List Asn) : Prop :=
  ∀ p ∈ ps, ∀ s ∈ ss, p.1 ∈ s.snk → s.right.isExpr = true ∨ s.right = .var p.1

/-! ### Proof -/

section
variable {V : Type} {O : Ops V} {B : List (V × V) → Prop} {ρ : Nat → V}

/-- What the pass keeps up. -/
structure Ok (I : Info) (ps : List (Nat × List E)) (ss : List Asn) : Prop where
  shown : ∀ s ∈ ss, s.shown = s.right
  direct : ∀ p ∈ ps, ∀ s ∈ ss, p.1 ∈ s.snk → s.right.isExpr = true ∨ s.right = .var p.1

theorem chg_isExpr {q : Nat} {n e : E} {p : Pos} (h : e.isExpr = true) : (chg q n p e).isExpr = true := by
  cases e with
  | var v => cases h
  | const v => cases h
  | param v => cases h
  | sl _ _ _ => cases h
  | ix _ _ => cases h
  | cast _ _ => cases h
  | call _ _ => cases h
  | _ => rfl

theorem fixOne_ok {I : Info} {q : Nat} {n : E} {ps : List (Nat × List E)} {ss : List Asn} {srcs : List E}
    (hn : ∀ p ∈ ps, p.1 ≠ q) (h : Ok I ((q, srcs) :: ps) ss) : Ok I ps (ss.map (fixOne I q n)) := by
  constructor
  · intro s hs
    obtain ⟨y, hy, rfl⟩ := List.mem_map.1 hs
    rw [fixOne]
    split
    · rename_i hq
      split
      · rfl
      · rename_i hx
        have := (h.direct _ List.mem_cons_self y hy hq).resolve_left hx
        simp only [this, genOf]
        split
        · rfl
        · rename_i hk; exact absurd (.inr trivial) hk
    · exact h.shown y hy
  · intro p hp s hs
    obtain ⟨y, hy, rfl⟩ := List.mem_map.1 hs
    rw [fixOne]
    split
    · rename_i hq
      split
      · rename_i hx
        exact fun _ => .inl (chg_isExpr hx)
      · rename_i hx
        intro hr
        have h1 := (h.direct _ List.mem_cons_self y hy hq).resolve_left hx
        have h2 := (h.direct p (List.mem_cons_of_mem _ hp) y hy hr).resolve_left hx
        rw [h1] at h2
        cases h2
        exact absurd rfl (hn p hp)
    · exact h.direct p (List.mem_cons_of_mem _ hp) y hy

theorem fixOne_value {I : Info} {q : Nat} {n : E} {ps : List (Nat × List E)} {ss : List Asn} {srcs : List E}
    (h : Ok I ((q, srcs) :: ps) ss) (hq : ρ q = ev O ρ n) : ∀ s ∈ ss, (fixOne I q n s).top = s.top ∧ (fixOne I q n s).listed = s.listed ∧
    ev O ρ (fixOne I q n s).left = ev O ρ s.left ∧ ev O ρ (fixOne I q n s).shown = ev O ρ s.shown := by
  intro s hs
  rw [fixOne]
  split
  · rename_i hm
    split
    · refine ⟨rfl, rfl, rfl, ?_⟩
      rw [h.shown s hs]
      exact ev_chg hq.symm s.right .operand
    · rename_i hx
      refine ⟨rfl, rfl, rfl, ?_⟩
      have := (h.direct _ List.mem_cons_self s hs hm).resolve_left hx
      rw [h.shown s hs, this]
      simp only
      split
      · exact hq.symm
      · rfl
  · exact ⟨rfl, rfl, rfl, rfl⟩

theorem holds_map {f : Asn → Asn} {ss : List Asn} (h : ∀ s ∈ ss, (f s).top = s.top ∧ (f s).listed = s.listed ∧
    ev O ρ (f s).left = ev O ρ s.left ∧ ev O ρ (f s).shown = ev O ρ s.shown) : Holds O B ρ (ss.map f) ↔ Holds O B ρ ss := by
  have hb : inBlocks O ρ (ss.map f) = inBlocks O ρ ss := inBlocks_map ss fun s hs => ⟨(h s hs).1, (h s hs).2.2.1, (h s hs).2.2.2⟩
  unfold Holds
  rw [hb]
  refine and_congr_left fun _ => ⟨fun hx s hs ht hl => ?_, fun hx s hs ht hl => ?_⟩
  · obtain ⟨h1, h2, h3, h4⟩ := h s hs
    have := hx (f s) (List.mem_map_of_mem hs) (by rw [h1]; exact ht) (by rw [h2]; exact hl)
    rw [h3, h4] at this
    exact this
  · obtain ⟨y, hy, rfl⟩ := List.mem_map.1 hs
    obtain ⟨h1, h2, h3, h4⟩ := h y hy
    rw [h3, h4]
    exact hx y hy (by rw [← h1]; exact ht) (by rw [← h2]; exact hl)

theorem ok_tail {I : Info} {p : Nat × List E} {ps : List (Nat × List E)} {ss : List Asn} (h : Ok I (p :: ps) ss) : Ok I ps ss :=
  ⟨h.shown, fun x hx => h.direct x (List.mem_cons_of_mem _ hx)⟩

theorem fix_holds {I : Info} : ∀ (ps : List (Nat × List E)) (ss ss' : List Asn), (ps.map fun p => p.1).Nodup → Ok I ps ss →
    fix I ps ss = .ok ss' → Driven O ρ ps → (Holds O B ρ ss ↔ Holds O B ρ ss')
  | [], ss, ss', _, _, h, _ => by cases h; exact Iff.rfl
  | (q, srcs) :: ps, ss, ss', hn, ho, h, hd => by
    rw [fix, Res.bind_eq_ok] at h
    obtain ⟨m, hm, h⟩ := h
    rw [List.map_cons, List.nodup_cons] at hn
    have hne : ∀ p ∈ ps, p.1 ≠ q := fun p hp he => hn.1 (List.mem_map.2 ⟨p, hp, he⟩)
    have hd' : Driven O ρ ps := fun p hp => hd p (List.mem_cons_of_mem _ hp)
    simp only [fixPort] at hm
    split at hm
    · split at hm
      · cases hm; exact fix_holds ps ss ss' hn.2 (ok_tail ho) h hd'
      · rename_i n rest
        split at hm
        · cases hm
          rw [← fix_holds ps _ ss' hn.2 (fixOne_ok hne ho) h hd']
          exact (holds_map (fixOne_value ho (hd _ List.mem_cons_self n List.mem_cons_self))).symm
        · cases hm
    · cases hm; exact fix_holds ps ss ss' hn.2 (ok_tail ho) h hd'

end

/-! ### Proof: references -/

section
variable {r : Nat}

theorem occurs_of_not : ∀ xs : Es, ¬ MentionsL r xs → occurs r xs = 0
  | .nil, _ => rfl
  | .cons x xs, h => by
    rw [occurs, occurs_of_not xs fun hx => h (.tail hx), if_neg]
    rintro rfl
    exact h (.head .var)

mutual
theorem found_of_not : ∀ (e : E) (b s : Bool), ¬ Mentions r e → Found r b s e
  | .var v, b, s, h => by rw [Found]; rintro rfl; exact absurd .var h
  | .const _, _, _, _ => trivial
  | .param _, _, _, _ => trivial
  | .sl e _ _, b, s, h => by rw [Found]; exact .inl fun x => h (.sl x)
  | .ix e i, b, s, h => by rw [Found]; exact .inl ⟨fun x => h (.ix x), fun x => h (.index x)⟩
  | .un _ a, b, s, h => by rw [Found]; exact found_of_not a _ _ fun x => h (.un x)
  | .bin _ a c, b, s, h => by rw [Found]; exact ⟨found_of_not a _ _ fun x => h (.binL x), found_of_not c _ _ fun x => h (.binR x)⟩
  | .cat xs, b, s, h => by
    rw [Found, occurs_of_not xs fun x => h (.cat x)]; exact ⟨Nat.zero_le _, founds_of_not xs fun x => h (.cat x)⟩
  | .ext _ a, b, s, h => by rw [Found]; exact found_of_not a _ _ fun x => h (.ext x)
  | .dup _ a, b, s, h => by rw [Found]; exact found_of_not a _ _ fun x => h (.dup x)
  | .ite c a d, b, s, h => by
    rw [Found]; exact ⟨found_of_not c _ _ fun x => h (.cond x), found_of_not a _ _ fun x => h (.thn x), found_of_not d _ _ fun x => h (.els x)⟩
  | .cast _ a, b, s, h => by rw [Found]; exact fun x => h (.cast x)
  | .call _ xs, b, s, h => by rw [Found]; exact fun x => h (.call x)
theorem founds_of_not : ∀ xs : Es, ¬ MentionsL r xs → Founds r xs
  | .nil, _ => trivial
  | .cons x xs, h => by rw [Founds]; exact ⟨.inr (found_of_not x _ _ fun y => h (.head y)), founds_of_not xs fun y => h (.tail y)⟩
end

end

theorem found_cast {q : Nat} {e : E} (hx : e.isExpr = true) : FoundCast q e ↔ Found q true true e := by
  cases e with
  | cast _ _ => cases hx
  | _ => exact Iff.rfl

theorem foundCast_of_not {r : Nat} : ∀ e : E, ¬ Mentions r e → FoundCast r e
  | .cast _ a, h => foundCast_of_not a fun x => h (.cast x)
  | .var v, h => found_of_not (.var v) true true h
  | .const _, _ => trivial
  | .param _, _ => trivial
  | .sl e hi lo, h => found_of_not (.sl e hi lo) true true h
  | .ix e i, h => found_of_not (.ix e i) true true h
  | .un o a, h => found_of_not (.un o a) true true h
  | .bin o a b, h => found_of_not (.bin o a b) true true h
  | .cat xs, h => found_of_not (.cat xs) true true h
  | .ext w a, h => found_of_not (.ext w a) true true h
  | .dup k a, h => found_of_not (.dup k a) true true h
  | .ite c a b, h => found_of_not (.ite c a b) true true h
  | .call f xs, h => found_of_not (.call f xs) true true h

/-- What a step does to the text. -/
theorem fixOne_subst {I : Info} {q : Nat} {n : E} {ps : List (Nat × List E)} {ss : List Asn} {srcs : List E} (h : Ok I ((q, srcs) :: ps) ss)
    {s : Asn} (hs : s ∈ ss) (hf : FoundCast q s.right) (hm : Mentions q s.right → q ∈ s.snk) :
    (fixOne I q n s).right = subst q n s.right ∧ (fixOne I q n s).snk = s.snk := by
  rw [fixOne]
  split
  · rename_i hq
    split
    · rename_i hx
      exact ⟨chg_found (t := q) (n := n) s.right .operand ((found_cast hx).1 hf), rfl⟩
    · rename_i hx
      have := (h.direct _ List.mem_cons_self s hs hq).resolve_left hx
      refine ⟨?_, rfl⟩
      simp only [this, subst, if_pos]
  · rename_i hq
    exact ⟨(subst_of_not _ fun hx => hq (hm hx)).symm, rfl⟩

theorem fix_closed {I : Info} : ∀ (ps : List (Nat × List E)) (done : List Nat) (ss ss' : List Asn), (ps.map fun p => p.1).Nodup →
    (∀ p ∈ ps, p.1 ∉ done) → Ok I ps ss → (∀ p ∈ ps, p.2 ≠ []) →
    (∀ p ∈ ps, ∀ n ∈ p.2, (∀ x ∈ ps, ¬ Mentions x.1 n) ∧ ∀ d ∈ done, ¬ Mentions d n) →
    (∀ p ∈ ps, ∀ s ∈ ss, FoundCast p.1 s.right) → (∀ p ∈ ps, ∀ s ∈ ss, Mentions p.1 s.right → p.1 ∈ s.snk) →
    (∀ d ∈ done, ∀ s ∈ ss, ¬ Mentions d s.right) → fix I ps ss = .ok ss' →
    (∀ s ∈ ss', s.shown = s.right) ∧ (∀ d ∈ done, ∀ s ∈ ss', ¬ Mentions d s.right) ∧ ∀ p ∈ ps, ∀ s ∈ ss', ¬ Mentions p.1 s.right
  | [], done, ss, ss', _, _, ho, _, _, _, _, hdn, h => by
    cases h
    exact ⟨ho.shown, hdn, fun p hp => by cases hp⟩
  | (q, srcs) :: ps, done, ss, ss', hn, hnd, ho, hne, hsrc, hf, hm1, hdn, h => by
    rw [fix, Res.bind_eq_ok] at h
    obtain ⟨m, hm, h⟩ := h
    rw [List.map_cons, List.nodup_cons] at hn
    have hne' : ∀ p ∈ ps, p.1 ≠ q := fun p hp he => hn.1 (List.mem_map.2 ⟨p, hp, he⟩)
    have fin : ∀ m, (∀ s ∈ m, ¬ Mentions q s.right) → Ok I ps m → (∀ p ∈ ps, ∀ s ∈ m, FoundCast p.1 s.right) →
        (∀ p ∈ ps, ∀ s ∈ m, Mentions p.1 s.right → p.1 ∈ s.snk) →
        (∀ d ∈ done, ∀ s ∈ m, ¬ Mentions d s.right) → fix I ps m = .ok ss' →
        (∀ s ∈ ss', s.shown = s.right) ∧ (∀ d ∈ done, ∀ s ∈ ss', ¬ Mentions d s.right) ∧
        ∀ p ∈ (q, srcs) :: ps, ∀ s ∈ ss', ¬ Mentions p.1 s.right := by
      intro m k1 k2 k3 k4 k6 h
      obtain ⟨a1, a2, a3⟩ := fix_closed ps (q :: done) m ss' hn.2
        (fun p hp hd => by
          rcases List.mem_cons.1 hd with hd | hd
          · exact hne' p hp hd
          · exact hnd p (List.mem_cons_of_mem _ hp) hd) k2 (fun p hp => hne p (List.mem_cons_of_mem _ hp))
        (fun p hp n hpn => ⟨fun x hx => (hsrc p (List.mem_cons_of_mem _ hp) n hpn).1 x (List.mem_cons_of_mem _ hx), fun d hd => by
          rcases List.mem_cons.1 hd with rfl | hd
          · exact (hsrc p (List.mem_cons_of_mem _ hp) n hpn).1 _ List.mem_cons_self
          · exact (hsrc p (List.mem_cons_of_mem _ hp) n hpn).2 d hd⟩) k3 k4
        (fun d hd => by
          rcases List.mem_cons.1 hd with rfl | hd
          · exact k1
          · exact k6 d hd) h
      refine ⟨a1, fun d hd => a2 d (List.mem_cons_of_mem _ hd), fun p hp => ?_⟩
      rcases List.mem_cons.1 hp with rfl | hp
      · exact a2 q List.mem_cons_self
      · exact a3 p hp
    have hcons := fun {P : Nat × List E → Prop} (hP : ∀ p ∈ (q, srcs) :: ps, P p) => fun p (hp : p ∈ ps) => hP p (List.mem_cons_of_mem _ hp)
    simp only [fixPort] at hm
    split at hm
    · split at hm
      · exact absurd rfl (hne _ List.mem_cons_self)
      · rename_i n rest
        split at hm
        · cases hm
          obtain ⟨hs1, hs2⟩ := hsrc _ List.mem_cons_self n List.mem_cons_self
          have hqn : ¬ Mentions q n := hs1 _ List.mem_cons_self
          have st : ∀ s ∈ ss, (fixOne I q n s).right = subst q n s.right ∧ (fixOne I q n s).snk = s.snk := fun s hs =>
            fixOne_subst ho hs (hf _ List.mem_cons_self s hs) (hm1 _ List.mem_cons_self s hs)
          have lift : ∀ {P : Asn → Prop}, (∀ s ∈ ss, P (fixOne I q n s)) → ∀ s ∈ ss.map (fixOne I q n), P s := by
            intro P hP s hs
            obtain ⟨y, hy, rfl⟩ := List.mem_map.1 hs
            exact hP y hy
          refine fin _ (lift fun s hs => ?_) (fixOne_ok hne' ho) (fun p hp => lift fun s hs => ?_) (fun p hp => lift fun s hs => ?_)
            (fun d hd => lift fun s hs => ?_) h
          · rw [(st s hs).1]; exact not_mentions_subst hqn _
          · rw [(st s hs).1]
            have hpn := hs1 p (List.mem_cons_of_mem _ hp)
            refine foundCast_subst hpn (fun b s => found_of_not n b s hpn) ?_ (hne' p hp) _ (hf p (List.mem_cons_of_mem _ hp) s hs)
            exact foundCast_of_not n hpn
          · rw [(st s hs).1, (st s hs).2]
            exact fun hx => hm1 p (List.mem_cons_of_mem _ hp) s hs (mentions_subst (hs1 p (List.mem_cons_of_mem _ hp)) _ hx)
          · rw [(st s hs).1]
            exact fun hx => hdn d hd s hs (mentions_subst (hs2 d hd) _ hx)
        · cases hm
    · rename_i hany
      cases hm
      refine fin ss (fun s hs hx => hany (List.any_eq_true.2 ⟨s, hs, decide_eq_true (hm1 _ List.mem_cons_self s hs hx)⟩)) (ok_tail ho)
        (hcons hf) (hcons hm1) hdn h

/-! ### Properties -/

/-- **C77 (partial).**  If the statements read the inputs by themselves or have an operator on the right, they say the same after the
pass, for every meaning of operators and blocks and all values that satisfy the connections. -/
theorem legal_partial {V : Type} (O : Ops V) (B : List (V × V) → Prop) (I : Info) (ps : List (Nat × List E)) (ss ss' : List Asn)
    (hs : Start ss) (hn : (ps.map fun p => p.1).Nodup) (hd : Direct ps ss) (h : fix I ps ss = .ok ss') (ρ : Nat → V) (hρ : Driven O ρ ps) :
    Holds O B ρ ss ↔ Holds O B ρ ss' :=
  fix_holds ps ss ss' hn ⟨hs.shown, hd⟩ h hρ

/-- **C77 (partial), the text.**  If moreover the references are in the places of C75 and every input has a source that is not again an
input of an instance, no statement reads an input of an instance afterwards. -/
theorem legal_text_partial (I : Info) (ps : List (Nat × List E)) (ss ss' : List Asn) (hs : Start ss) (hn : (ps.map fun p => p.1).Nodup)
    (hd : Direct ps ss) (hsrc : ∀ p ∈ ps, p.2 ≠ [] ∧ ∀ n ∈ p.2, ∀ x ∈ ps, ¬ Mentions x.1 n)
    (hf : ∀ p ∈ ps, ∀ s ∈ ss, FoundCast p.1 s.right ∧ (Mentions p.1 s.right → p.1 ∈ s.snk)) (h : fix I ps ss = .ok ss') :
    ∀ p ∈ ps, ∀ s ∈ ss', ¬ Mentions p.1 s.shown := by
  obtain ⟨h1, _, h2⟩ := fix_closed ps [] ss ss' hn (fun _ _ => List.not_mem_nil) ⟨hs.shown, hd⟩ (fun p hp => (hsrc p hp).1)
    (fun p hp n hpn => ⟨(hsrc p hp).2 n hpn, fun d hd => absurd hd List.not_mem_nil⟩) (fun p hp s hs => (hf p hp s hs).1)
    (fun p hp s hs => (hf p hp s hs).2) (fun d hd => absurd hd List.not_mem_nil) h
  intro p hp s hs'
  rw [h1 s hs']
  exact h2 p hp s hs'

/-- Statements that read no input stay, and nothing else than what is read changes. -/
theorem legal_frame (I : Info) : ∀ (ps : List (Nat × List E)) (ss ss' : List Asn), fix I ps ss = .ok ss' →
    ss'.map (fun s => (s.top, s.kind, s.left, s.listed)) = ss.map (fun s => (s.top, s.kind, s.left, s.listed)) ∧
    ∀ s ∈ ss, (∀ p ∈ ps, p.1 ∉ s.snk) → s ∈ ss'
  | [], ss, ss', h => by cases h; exact ⟨rfl, fun s hs _ => hs⟩
  | (q, srcs) :: ps, ss, ss', h => by
    rw [fix, Res.bind_eq_ok] at h
    obtain ⟨m, hm, h⟩ := h
    obtain ⟨i1, i2⟩ := legal_frame I ps m ss' h
    have : m.map (fun s => (s.top, s.kind, s.left, s.listed)) = ss.map (fun s => (s.top, s.kind, s.left, s.listed)) ∧
        ∀ s ∈ ss, q ∉ s.snk → s ∈ m := by
      simp only [fixPort] at hm
      split at hm
      · split at hm
        · cases hm; exact ⟨rfl, fun s hs _ => hs⟩
        · split at hm
          · cases hm
            refine ⟨?_, fun s hs hq => List.mem_map.2 ⟨s, hs, by rw [fixOne, if_neg hq]⟩⟩
            rw [List.map_map]
            refine List.map_congr_left fun s _ => ?_
            simp only [Function.comp, fixOne]
            split
            · split <;> rfl
            · rfl
          · cases hm
      · cases hm; exact ⟨rfl, fun s hs _ => hs⟩
    exact ⟨i1.trans this.1, fun s hs hp => i2 s (this.2 s hs (hp _ List.mem_cons_self)) fun p hpp => hp p (List.mem_cons_of_mem _ hpp)⟩

/-! ### A design meeting the hypotheses

Signals: 2 and 4 are inputs of an instance, connected to 10 and to a part of 11.  Statements: `x12 = child.in2 + child.in4[0]`,
`x13 = child.in2`, and `if (child.in4 & x10)` in a block. -/
section
def exSrc : List (Nat × List E) := [(2, [.var 10]), (4, [.sl (.var 11) 3 0])]

def exSs : List Asn :=
  [⟨true, .assign, .var 12, .bin 0 (.var 2) (.sl (.var 4) 0 0), .bin 0 (.var 2) (.sl (.var 4) 0 0), [12], [2, 4], true⟩,
   ⟨true, .assign, .var 13, .var 2, .var 2, [13], [2], true⟩,
   ⟨false, .test, .var 30, .bin 1 (.var 4) (.var 10), .bin 1 (.var 4) (.var 10), [], [4, 10], true⟩]

example : (fix exInfo exSrc exSs).map (fun ss => ss.map fun s => s.shown) =
    .ok [.bin 0 (.var 10) (.sl (.sl (.var 11) 3 0) 0 0), .var 10, .bin 1 (.sl (.var 11) 3 0) (.var 10)] := by decide +kernel

example : Start exSs where
  listed := by decide
  shown := by decide
  top := by decide
  src := by decide +kernel
  snk := by decide +kernel

instance (ps : List (Nat × List E)) (ss : List Asn) : Decidable (Direct ps ss) := by unfold Direct; infer_instance

example : Direct exSrc exSs := by decide +kernel

example : ∀ p ∈ exSrc, ∀ s ∈ exSs, FoundCast p.1 s.right ∧ (Mentions p.1 s.right → p.1 ∈ s.snk) := by
  intro p hp s hs
  rw [mentions_dec]
  simp only [exSrc, List.mem_cons, List.mem_nil_iff, or_false] at hp
  simp only [exSs, List.mem_cons, List.mem_nil_iff, or_false] at hs
  rcases hp with rfl | rfl <;> rcases hs with rfl | rfl | rfl <;>
    refine ⟨?_, by decide⟩ <;> simp [FoundCast, Found, mentions_var] <;> exact .sl .var
end

/-! ### Where the claim fails -/

/-- What one assignment reads afterwards, when `child.in2` is connected to `x10`. -/
def afterFix (s : Asn) : Res (List (E × E)) := (fix exInfo [(2, [.var 10])] [s]).map fun ss => ss.map fun s => (s.left, s.shown)

/-- `x12 = child.in2[0]` becomes `x12 = x10`. -/
theorem slice_wrong : afterFix ⟨true, .assign, .var 12, .sl (.var 2) 0 0, .sl (.var 2) 0 0, [12], [2], true⟩ = .ok [(.var 12, .var 10)] := by
  decide +kernel

/-- `x12 = cast(child.in2)` becomes `x12 = x10`. -/
theorem cast_wrong : afterFix ⟨true, .assign, .var 12, .cast 7 (.var 2), .cast 7 (.var 2), [12], [2], true⟩ = .ok [(.var 12, .var 10)] := by
  decide +kernel

/-- `x12 = mem[child.in2]` becomes `x12 = x10`. -/
theorem index_wrong : afterFix ⟨true, .assign, .var 12, .ix (.var 14) (.var 2), .ix (.var 14) (.var 2), [12], [14, 2], true⟩ =
    .ok [(.var 12, .var 10)] := by decide +kernel

/-- `mem[child.in2] = x13` becomes `mem[child.in2] = x10`: the address is written instead of the data. -/
theorem write_wrong : afterFix ⟨true, .assign, .ix (.var 14) (.var 2), .var 13, .var 13, [14], [13, 2], true⟩ =
    .ok [(.ix (.var 14) (.var 2), .var 10)] := by decide +kernel

/-- `if (child.in2[0])` becomes `if (x10)`. -/
theorem test_wrong : afterFix ⟨false, .test, .var 30, .sl (.var 2) 0 0, .sl (.var 2) 0 0, [], [2], true⟩ = .ok [(.var 30, .var 10)] := by
  decide +kernel

/-- `if (mem[child.in2])` stays, reading the port of the child. -/
theorem test_lost : afterFix ⟨false, .test, .var 30, .ix (.var 14) (.var 2), .ix (.var 14) (.var 2), [], [14, 2], true⟩ =
    .ok [(.var 30, .ix (.var 14) (.var 2))] := by decide +kernel

/-- Bits: slices select, everything else does not matter. -/
def bits : Ops Nat where
  const k := k.toNat
  param k := k
  sl hi lo x := x / 2 ^ lo % 2 ^ (hi + 1 - lo)
  ix a _ := a
  un _ a := a
  bin _ a _ := a
  cat _ := 0
  ext _ a := a
  dup _ a := a
  ite _ a _ := a
  cast _ a := a
  call _ _ := 0

/-- With `child.in2 = x10 = 2`, the bit selected is 0; after the pass the assignment says that it is 2. -/
theorem not_LegalClaim : ¬ LegalClaim := by
  intro h
  have := (h exInfo [(2, [.var 10])] [⟨true, .assign, .var 12, .sl (.var 2) 0 0, .sl (.var 2) 0 0, [12], [2], true⟩]
    [⟨true, .assign, .var 12, .var 10, .var 10, [12], [2], true⟩]
    ⟨by decide, by decide, by decide, by decide +kernel, by decide +kernel⟩ (by decide +kernel)).1 bits (fun _ => True)
    (fun v => if v = 12 then 0 else 2) (fun p hp e he => by
      rw [List.mem_singleton.1 hp] at he ⊢
      rw [List.mem_singleton.1 he]
      rfl)
  have h2 := (this.1 ⟨fun s hs _ _ => by rw [List.mem_singleton.1 hs]; rfl, trivial⟩).1 _ List.mem_cons_self rfl rfl
  exact absurd h2 (by decide)

end Kratos.Legal
