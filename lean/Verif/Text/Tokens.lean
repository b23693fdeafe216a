import Verif.Base

/-!
# C58 (tokens) and C59 (comment wrapping)

Strings are lists of characters.
-/

namespace Kratos.Text

abbrev Str := List Char

/-- `string::join` (src/util.hh:82-90). -/
def join (sep : Str) : List Str → Str
  | [] => []
  | [t] => t
  | t :: ts => t ++ sep ++ join sep ts

/-- `line.find_first_of(delimiter, prev)`: the text before the first delimiter at or after the
position, and, when there is one, the text behind it. -/
def findFirst (d : Str) : Str → Str × Option Str
  | [] => ([], none)
  | c :: cs => if d.contains c then ([], some cs)
    else ((c :: (findFirst d cs).1), (findFirst d cs).2)

theorem findFirst_lt (d : Str) : ∀ (s r : Str), (findFirst d s).2 = some r → r.length < s.length
  | [], r, h => by simp [findFirst] at h
  | c :: cs, r, h => by
    unfold findFirst at h
    split at h
    · injection h with h; subst h; simp
    · have := findFirst_lt d cs r h
      simp only [List.length_cons]; omega

/-- The loop of `get_tokens` (src/util.cc:611-617); the position `prev` is the suffix still to be
read. -/
def tokLoop (d : Str) (s : Str) : List Str :=
  match h : (findFirst d s).2 with
  | some r => (if (findFirst d s).1.length > 0 then [(findFirst d s).1] else []) ++ tokLoop d r
  | none => if s.length > 0 then [s] else []
termination_by s.length
decreasing_by exact findFirst_lt d s r h

/-- `string::get_tokens` (src/util.cc:606-623). -/
def getTokens (line d : Str) : List Str := (tokLoop d line).filter fun t => !t.isEmpty

/-! ### Specification -/

/-- No delimiter in `t`. -/
def Free (d t : Str) : Prop := ∀ c ∈ t, c ∉ d

instance (d t : Str) : Decidable (Free d t) := inferInstanceAs (Decidable (∀ c ∈ t, c ∉ d))

/-- `line` is the pieces `ts` in order, set apart by runs of delimiters: at least one delimiter between two
pieces, any number at the ends. -/
inductive Pieces (d : Str) : List Str → Str → Prop where
  | done {sep : Str} : (∀ c ∈ sep, c ∈ d) → Pieces d [] sep
  | last {sep t : Str} : (∀ c ∈ sep, c ∈ d) → t ≠ [] → Free d t → Pieces d [t] (sep ++ t)
  | more {sep t rest : Str} {c : Char} {ts : List Str} : (∀ c ∈ sep, c ∈ d) → t ≠ [] → Free d t → c ∈ d →
      Pieces d ts rest → Pieces d (t :: ts) (sep ++ t ++ c :: rest)

/-! ### Proofs -/

theorem findFirst_some {d : Str} : ∀ {s r : Str}, (findFirst d s).2 = some r →
    ∃ c, c ∈ d ∧ s = (findFirst d s).1 ++ c :: r ∧ Free d (findFirst d s).1
  | [], r, h => by simp [findFirst] at h
  | c :: cs, r, h => by
    unfold findFirst at h ⊢
    split at h
    · rename_i hc
      injection h with h; subst h
      rw [if_pos hc]
      exact ⟨c, List.contains_iff_mem.1 hc, rfl, fun x hx => by cases hx⟩
    · rename_i hc
      obtain ⟨c', h1, h2, h3⟩ := findFirst_some (d := d) h
      rw [if_neg hc]
      refine ⟨c', h1, by simp only [List.cons_append]; rw [← h2], ?_⟩
      intro x hx
      rcases List.mem_cons.1 hx with rfl | hx
      · exact fun hm => hc (List.contains_iff_mem.2 hm)
      · exact h3 x hx

theorem findFirst_none {d : Str} : ∀ {s : Str}, (findFirst d s).2 = none → Free d s
  | [], _ => fun _ h => by cases h
  | c :: cs, h => by
    unfold findFirst at h
    split at h
    · cases h
    · rename_i hc
      intro x hx
      rcases List.mem_cons.1 hx with rfl | hx
      · exact fun hm => hc (List.contains_iff_mem.2 hm)
      · exact findFirst_none h x hx

theorem findFirst_append {d : Str} {c : Char} (hc : c ∈ d) : ∀ {t r : Str}, Free d t →
    findFirst d (t ++ c :: r) = (t, some r)
  | [], r, _ => by simp [findFirst, hc]
  | x :: xs, r, h => by
    have hx : ¬ (d.contains x = true) := fun hm => h x (List.mem_cons_self ..) (List.contains_iff_mem.1 hm)
    simp only [List.cons_append, findFirst]
    rw [if_neg hx, findFirst_append hc (fun y hy => h y (List.mem_cons_of_mem _ hy))]

theorem findFirst_free {d : Str} : ∀ {t : Str}, Free d t → findFirst d t = (t, none)
  | [], _ => rfl
  | x :: xs, h => by
    have hx : ¬ (d.contains x = true) := fun hm => h x (List.mem_cons_self ..) (List.contains_iff_mem.1 hm)
    simp only [findFirst]
    rw [if_neg hx, findFirst_free (fun y hy => h y (List.mem_cons_of_mem _ hy))]

theorem tokLoop_delim {d : Str} {c : Char} (hc : c ∈ d) (r : Str) : tokLoop d (c :: r) = tokLoop d r := by
  have h := findFirst_append (d := d) hc (t := []) (r := r) (fun _ h => by cases h)
  rw [tokLoop]
  simp only [List.nil_append] at h
  split
  · rename_i r' h'
    rw [h] at h'
    injection h' with h'
    subst h'
    simp [h]
  · rename_i h'
    rw [h] at h'
    cases h'

theorem tokLoop_seps {d : Str} (r : Str) : ∀ {sep : Str}, (∀ c ∈ sep, c ∈ d) → tokLoop d (sep ++ r) = tokLoop d r
  | [], _ => rfl
  | c :: cs, h => by
    rw [List.cons_append, tokLoop_delim (h c (List.mem_cons_self ..)),
      tokLoop_seps r (fun x hx => h x (List.mem_cons_of_mem _ hx))]

theorem tokLoop_piece {d t r : Str} {c : Char} (hc : c ∈ d) (ht : t ≠ []) (hf : Free d t) :
    tokLoop d (t ++ c :: r) = t :: tokLoop d r := by
  have h := findFirst_append (d := d) hc (t := t) (r := r) hf
  rw [tokLoop]
  split
  · rename_i r' h'
    rw [h] at h'
    injection h' with h'
    subst h'
    rw [h]
    have : t.length > 0 := List.length_pos_iff.2 ht
    simp [this]
  · rename_i h'
    rw [h] at h'
    cases h'

theorem tokLoop_last {d t : Str} (hf : Free d t) : tokLoop d t = if t.length > 0 then [t] else [] := by
  have h := findFirst_free hf
  rw [tokLoop]
  split
  · rename_i r' h'
    rw [h] at h'
    cases h'
  · rfl

/-- **C58, exact result**: whenever a line consists of pieces set apart by delimiters, these pieces are
the tokens. -/
theorem tokens_of_pieces {d : Str} {ts : List Str} {line : Str} (h : Pieces d ts line) : getTokens line d = ts := by
  have key : tokLoop d line = ts := by
    induction h with
    | done hs =>
      rename_i sep
      have := tokLoop_seps (d := d) [] hs
      rw [List.append_nil] at this
      rw [this, tokLoop_last (fun _ h => by cases h)]
      rfl
    | last hs ht hf =>
      rw [tokLoop_seps _ hs, tokLoop_last hf, if_pos (List.length_pos_iff.2 ht)]
    | more hs ht hf hc _ ih =>
      rw [List.append_assoc, tokLoop_seps _ hs, tokLoop_piece hc ht hf, ih]
  have hne : ∀ t ∈ ts, t ≠ [] := by
    intro t ht
    clear key
    induction h with
    | done _ => cases ht
    | last _ h1 _ => rw [List.mem_singleton] at ht; subst ht; exact h1
    | more _ h1 _ _ _ ih =>
      rcases List.mem_cons.1 ht with rfl | ht
      · exact h1
      · exact ih ht
  rw [getTokens, key, List.filter_eq_self]
  intro t ht
  simp [hne t ht]

/-- Every line consists of pieces. -/
theorem pieces_exist (d : Str) : ∀ (n : Nat) (line : Str), line.length ≤ n → ∃ ts, Pieces d ts line
  | 0, line, h => ⟨[], by
      have : line = [] := List.length_eq_zero_iff.1 (by omega)
      subst this; exact Pieces.done (fun _ h => by cases h)⟩
  | n + 1, line, h => by
    cases hf : (findFirst d line).2 with
    | none =>
      have hfree := findFirst_none hf
      cases line with
      | nil => exact ⟨[], Pieces.done (fun _ h => by cases h)⟩
      | cons c cs => exact ⟨[c :: cs], Pieces.last (sep := []) (fun _ h => by cases h) (by simp) hfree⟩
    | some r =>
      obtain ⟨c, hc, he, hfree⟩ := findFirst_some hf
      have hlt := findFirst_lt d line r hf
      obtain ⟨ts, hts⟩ := pieces_exist d n r (by omega)
      cases ht : (findFirst d line).1 with
      | nil =>
        rw [ht] at he
        rw [he]
        cases hts with
        | done hs => exact ⟨[], Pieces.done (by
            intro x hx
            rcases List.mem_cons.1 hx with rfl | hx
            · exact hc
            · exact hs x hx)⟩
        | last hs h1 h2 =>
          rename_i sep t
          exact ⟨[t], Pieces.last (sep := c :: sep) (by
            intro x hx
            rcases List.mem_cons.1 hx with rfl | hx
            · exact hc
            · exact hs x hx) h1 h2⟩
        | more hs h1 h2 h3 h4 =>
          rename_i sep t rest c' ts
          exact ⟨t :: ts, Pieces.more (sep := c :: sep) (by
            intro x hx
            rcases List.mem_cons.1 hx with rfl | hx
            · exact hc
            · exact hs x hx) h1 h2 h3 h4⟩
      | cons a as =>
        rw [ht] at he hfree
        rw [he]
        exact ⟨(a :: as) :: ts, Pieces.more (sep := []) (fun _ h => by cases h) (by simp) hfree hc hts⟩

theorem pieces_facts {d : Str} {ts : List Str} {line : Str} (h : Pieces d ts line) :
    (∀ t ∈ ts, t ≠ [] ∧ Free d t) ∧ ts.flatten = line.filter (fun c => !d.contains c) := by
  have sepf : ∀ {s : Str}, (∀ c ∈ s, c ∈ d) → s.filter (fun c => !d.contains c) = [] := by
    intro s hs
    rw [List.filter_eq_nil_iff]
    intro c hc
    simp [hs c hc]
  have freef : ∀ {t : Str}, Free d t → t.filter (fun c => !d.contains c) = t := by
    intro t ht
    rw [List.filter_eq_self]
    intro c hc
    simp [ht c hc]
  induction h with
  | done hs => exact ⟨(fun _ h => nomatch h), (sepf hs).symm⟩
  | last hs h1 h2 =>
    refine ⟨fun t ht => ?_, ?_⟩
    · rw [List.mem_singleton] at ht; subst ht; exact ⟨h1, h2⟩
    · rw [List.filter_append, sepf hs, freef h2]; simp
  | more hs h1 h2 h3 _ ih =>
    refine ⟨fun t ht => ?_, ?_⟩
    · rcases List.mem_cons.1 ht with rfl | ht
      · exact ⟨h1, h2⟩
      · exact ih.1 t ht
    · rw [List.filter_append, List.filter_append, sepf hs, freef h2, List.filter_cons_of_neg (by simp [h3]),
        List.flatten_cons, ih.2]
      rfl

/-- **C58**: for every line and every set of delimiters: the tokens are non-empty, contain no delimiter,
and are, in order, the line without its delimiters; two neighbouring characters that are no
delimiters stay together (`Pieces`). -/
theorem tokens_spec (line d : Str) :
    (∀ t ∈ getTokens line d, t ≠ [] ∧ Free d t) ∧
    (getTokens line d).flatten = line.filter (fun c => !d.contains c) ∧
    Pieces d (getTokens line d) line := by
  obtain ⟨ts, h⟩ := pieces_exist d line.length line (Nat.le_refl _)
  rw [tokens_of_pieces h]
  exact ⟨(pieces_facts h).1, (pieces_facts h).2, h⟩

/-- **C58, joining and splitting**: non-empty pieces without delimiters, joined by a non-empty separator
made of delimiters, come back. -/
theorem tokens_join (d sep : Str) (hs : sep ≠ []) (hd : ∀ c ∈ sep, c ∈ d) (ts : List Str)
    (ht : ∀ t ∈ ts, t ≠ [] ∧ Free d t) : getTokens (join sep ts) d = ts := by
  apply tokens_of_pieces
  have add : ∀ {pre : Str} {ts : List Str} {l : Str}, (∀ c ∈ pre, c ∈ d) → Pieces d ts l → Pieces d ts (pre ++ l) := by
    intro pre ts l hp h
    have cat : ∀ {a b : Str}, (∀ c ∈ a, c ∈ d) → (∀ c ∈ b, c ∈ d) → ∀ c ∈ a ++ b, c ∈ d := by
      intro a b ha hb c hc
      rcases List.mem_append.1 hc with h | h
      · exact ha c h
      · exact hb c h
    cases h with
    | done hs => exact Pieces.done (cat hp hs)
    | last hs h1 h2 => rw [← List.append_assoc]; exact Pieces.last (cat hp hs) h1 h2
    | more hs h1 h2 h3 h4 =>
      rw [← List.append_assoc, ← List.append_assoc]
      exact Pieces.more (cat hp hs) h1 h2 h3 h4
  induction ts with
  | nil => exact Pieces.done (fun _ h => by cases h)
  | cons t ts ih =>
    obtain ⟨h1, h2⟩ := ht t (List.mem_cons_self ..)
    cases ts with
    | nil => exact Pieces.last (sep := []) (fun _ h => by cases h) h1 h2
    | cons u us =>
      have ih := ih (fun t h => ht t (List.mem_cons_of_mem _ h))
      cases sep with
      | nil => exact absurd rfl hs
      | cons c cs =>
        have := Pieces.more (sep := []) (fun _ h => by cases h) h1 h2 (hd c (List.mem_cons_self ..))
          (add (pre := cs) (fun x hx => hd x (List.mem_cons_of_mem _ hx)) ih)
        simpa [join] using this

/-- Hypotheses of `tokens_join` met, with a separator of two delimiters. -/
example : getTokens (join ". ".toList ["top".toList, "a3".toList, "b".toList]) "[]. ".toList =
    ["top".toList, "a3".toList, "b".toList] :=
  tokens_join _ _ (by decide) (by decide) _ (by decide)

/-- Runs of delimiters give no empty tokens. -/
example : getTokens "..a[3].b]".toList "[].".toList = ["a".toList, "3".toList, "b".toList] := by
  rw [show "..a[3].b]".toList = "..".toList ++ "a".toList ++ '[' :: ([] ++ "3".toList ++ ']' :: (".".toList ++ "b".toList ++ ']' :: [])) by decide]
  exact tokens_of_pieces (.more (by decide) (by decide) (by decide) (by decide)
    (.more (by decide) (by decide) (by decide) (by decide)
      (.more (by decide) (by decide) (by decide) (by decide) (.done (by decide)))))

/-! ## Line wrapping -/

/-- `std::isspace` in the C locale, used by `operator>>`. -/
def spaces : Str := [' ', '\t', '\n', '\x0b', '\x0c', '\r']

/-- The words `std::istringstream` delivers. -/
def wordsOf (text : Str) : List Str := getTokens text spaces

/-- The inner loop of `line_wrap` (src/util.cc:399-409); `left` is `space_left`, a 64-bit `size_t`. -/
def wrapLoop (width : Nat) : List Str → Str → BitVec 64 → List Str
  | [], line, _ => [line]
  | w :: ws, line, left =>
    if left < BitVec.ofNat 64 (w.length + 1) then
      line :: wrapLoop width ws w (BitVec.ofNat 64 width - BitVec.ofNat 64 w.length)
    else wrapLoop width ws (line ++ ' ' :: w) (left - BitVec.ofNat 64 (w.length + 1))

/-- `line_wrap` (src/util.cc:390-413); the width is a `uint32_t`. -/
def lineWrap (text : Str) (width : Nat) : List Str :=
  match wordsOf text with
  | [] => [[]]
  | w :: ws => wrapLoop width ws w (BitVec.ofNat 64 width - BitVec.ofNat 64 w.length)

/-- The lines are words joined by single spaces. -/
def Lines (groups : List (List Str)) (lines : List Str) : Prop := lines = groups.map (join [' '])

theorem join_snoc (sep : Str) : ∀ (ts : List Str) (t : Str), ts ≠ [] → join sep (ts ++ [t]) = join sep ts ++ sep ++ t
  | [], _, h => absurd rfl h
  | [a], t, _ => rfl
  | a :: b :: ts, t, _ => by
    have := join_snoc sep (b :: ts) t (by simp)
    simp only [List.cons_append] at this ⊢
    simp only [join]
    rw [this]
    simp

theorem wrap_groups (width : Nat) : ∀ (ws g : List Str) (left : BitVec 64), g ≠ [] →
    ∃ groups : List (List Str), wrapLoop width ws (join [' '] g) left = groups.map (join [' ']) ∧ groups.flatten = g ++ ws ∧ [] ∉ groups
  | [], g, left, hg => ⟨[g], by simp [wrapLoop], by simp, by
      intro h
      exact hg (List.mem_singleton.1 h).symm⟩
  | w :: ws, g, left, hg => by
    unfold wrapLoop
    split
    · obtain ⟨gs, h1, h2, h3⟩ := wrap_groups width ws [w] (BitVec.ofNat 64 width - BitVec.ofNat 64 w.length) (by simp)
      refine ⟨g :: gs, ?_, ?_, ?_⟩
      · rw [List.map_cons, ← h1]; rfl
      · rw [List.flatten_cons, h2]; simp
      · intro h
        rcases List.mem_cons.1 h with h | h
        · exact hg h.symm
        · exact h3 h
    · have hj : join [' '] g ++ ' ' :: w = join [' '] (g ++ [w]) := by
        rw [join_snoc _ _ _ hg]; simp
      rw [hj]
      obtain ⟨gs, h1, h2, h3⟩ := wrap_groups width ws (g ++ [w]) (left - BitVec.ofNat 64 (w.length + 1)) (by simp)
      exact ⟨gs, h1, by rw [h2]; simp, h3⟩

/-- **C59, words**: for every text and width the emitted lines are groups of words joined by single
spaces, and together they are the words of the text in order; no line is empty unless the text has no
words. -/
theorem wrap_words (text : Str) (width : Nat) :
    (wordsOf text = [] ∧ lineWrap text width = [[]]) ∨
    ∃ groups : List (List Str), lineWrap text width = groups.map (join [' ']) ∧ groups.flatten = wordsOf text ∧ [] ∉ groups := by
  unfold lineWrap
  cases h : wordsOf text with
  | nil => exact Or.inl ⟨rfl, rfl⟩
  | cons w ws =>
    right
    obtain ⟨gs, h1, h2, h3⟩ := wrap_groups width ws [w] (BitVec.ofNat 64 width - BitVec.ofNat 64 w.length) (by simp)
    exact ⟨gs, h1, by rw [h2]; rfl, h3⟩

/-- Reading the lines back gives the words of the text. -/
theorem wrap_reads_back (text : Str) (width : Nat) :
    (lineWrap text width).flatMap wordsOf = wordsOf text := by
  have hw : ∀ t ∈ wordsOf text, t ≠ [] ∧ Free spaces t := (tokens_spec text spaces).1
  rcases wrap_words text width with ⟨h1, h2⟩ | ⟨gs, h1, h2, h3⟩
  · rw [h1, h2]
    simp [wordsOf, tokens_of_pieces (Pieces.done (d := spaces) (sep := []) (fun _ h => by cases h))]
  · rw [h1, ← h2]
    have : ∀ gs' : List (List Str), (∀ g ∈ gs', g ∈ gs) → (gs'.map (join [' '])).flatMap wordsOf = gs'.flatten := by
      intro gs'
      induction gs' with
      | nil => intro _; rfl
      | cons g gs' ih =>
        intro hm
        rw [List.map_cons, List.flatMap_cons, ih (fun g hg => hm g (List.mem_cons_of_mem _ hg)), List.flatten_cons]
        congr 1
        apply tokens_join
        · simp
        · intro c hc; rw [List.mem_singleton] at hc; subst hc; decide
        · intro t ht
          apply hw
          rw [← h2]
          exact List.mem_flatten.2 ⟨g, hm g (List.mem_cons_self ..), ht⟩
    exact this gs (fun _ h => h)

theorem sub_ofNat {a b : Nat} (h : b ≤ a) (ha : a < 2 ^ 64) : BitVec.ofNat 64 a - BitVec.ofNat 64 b = BitVec.ofNat 64 (a - b) := by
  apply BitVec.eq_of_toNat_eq
  rw [BitVec.toNat_sub, BitVec.toNat_ofNat, BitVec.toNat_ofNat, BitVec.toNat_ofNat]
  omega

/-- The line fits, or begins with a word that does not. -/
def FitsOrLong (width : Nat) (ws : List Str) (l : Str) : Prop :=
  l.length ≤ width ∨ ∃ w ∈ ws, w.length > width ∧ w <+: l

theorem wrap_width_loop (width : Nat) (hw : width < 2 ^ 32) (all : List Str) : ∀ (ws g : List Str), g ≠ [] →
    (∀ t ∈ ws, t.length < 2 ^ 63 ∧ t ∈ all) → ∀ left : BitVec 64,
    ((join [' '] g).length ≤ width ∧ left = BitVec.ofNat 64 (width - (join [' '] g).length) ∨
      ∃ w ∈ all, w.length > width ∧ w <+: join [' '] g) →
    ∀ l ∈ wrapLoop width ws (join [' '] g) left, FitsOrLong width all l := by
  intro ws
  induction ws with
  | nil =>
    intro g hg _ left hl l h
    simp only [wrapLoop, List.mem_singleton] at h
    subst h
    exact hl.imp (·.1) id
  | cons w ws ih =>
    intro g hg hs left hl l h
    obtain ⟨hwl, hwm⟩ := hs w (List.mem_cons_self ..)
    have hs' := fun t ht => hs t (List.mem_cons_of_mem _ ht)
    unfold wrapLoop at h
    split at h
    · rcases List.mem_cons.1 h with rfl | h
      · exact hl.imp (·.1) id
      · refine ih [w] (by simp) hs' _ ?_ l h
        by_cases hfit : w.length ≤ width
        · exact Or.inl ⟨hfit, sub_ofNat hfit (by omega)⟩
        · exact Or.inr ⟨w, hwm, by omega, List.prefix_refl _⟩
    · rename_i hc
      have hj : join [' '] g ++ ' ' :: w = join [' '] (g ++ [w]) := by
        rw [join_snoc _ _ _ hg]; simp
      rw [hj] at h
      refine ih (g ++ [w]) (by simp) hs' _ ?_ l h
      rcases hl with ⟨hl, rfl⟩ | ⟨x, hx, h1, h2⟩
      · left
        rw [BitVec.lt_def, BitVec.toNat_ofNat, BitVec.toNat_ofNat, Nat.mod_eq_of_lt (by omega), Nat.mod_eq_of_lt (by omega)] at hc
        have hlen : (join [' '] (g ++ [w])).length = (join [' '] g).length + (w.length + 1) := by
          rw [← hj]; simp
        refine ⟨by omega, ?_⟩
        rw [sub_ofNat (by omega) (by omega), hlen]
        congr 1
        omega
      · right
        refine ⟨x, hx, h1, ?_⟩
        rw [← hj]
        exact h2.trans (List.prefix_append ..)

theorem token_length (line d t : Str) (h : t ∈ getTokens line d) : t.length ≤ line.length := by
  have h1 : (getTokens line d).flatten.length ≤ line.length := by
    rw [(tokens_spec line d).2.1]; exact List.length_filter_le ..
  have h2 : t.Sublist (getTokens line d).flatten := List.sublist_flatten_of_mem h
  exact Nat.le_trans h2.length_le h1

/-- Full claim of C59 on widths: no line exceeds the width unless it is a single word. -/
def WrapClaim (text : Str) (width : Nat) : Prop :=
  ∀ l ∈ lineWrap text width, l.length ≤ width ∨ l ∈ wordsOf text

/-- **C59, partial**: for every text (shorter than 2^63) and every 32-bit width: each line fits in the width, or
it begins with a word that alone is longer than the width. Missing: in the second case the line goes on
(`not_WrapClaim`, `wrap_after_long`). -/
theorem wrap_width_partial (text : Str) (width : Nat) (hw : width < 2 ^ 32) (ht : text.length < 2 ^ 63) :
    ∀ l ∈ lineWrap text width, FitsOrLong width (wordsOf text) l := by
  intro l hl
  have hlen : ∀ t ∈ wordsOf text, t.length < 2 ^ 63 := fun t h => Nat.lt_of_le_of_lt (token_length _ _ _ h) ht
  unfold lineWrap at hl
  cases h : wordsOf text with
  | nil => rw [h] at hl; simp only [List.mem_singleton] at hl; subst hl; exact Or.inl (Nat.zero_le _)
  | cons w ws =>
    rw [h] at hl hlen
    refine wrap_width_loop width hw (w :: ws) ws [w] (by simp) (fun t ht => ⟨hlen t (List.mem_cons_of_mem _ ht), List.mem_cons_of_mem _ ht⟩) _ ?_ l hl
    by_cases hfit : w.length ≤ width
    · exact Or.inl ⟨hfit, sub_ofNat hfit (by omega)⟩
    · exact Or.inr ⟨w, List.mem_cons_self .., by omega, List.prefix_refl _⟩

/-- **C59, texts without over-long words**: no line exceeds the width. -/
theorem wrap_width (text : Str) (width : Nat) (hw : width < 2 ^ 32) (ht : text.length < 2 ^ 63)
    (hs : ∀ w ∈ wordsOf text, w.length ≤ width) : ∀ l ∈ lineWrap text width, l.length ≤ width := by
  intro l hl
  rcases wrap_width_partial text width hw ht l hl with h | ⟨w, h1, h2, _⟩
  · exact h
  · exact absurd (hs w h1) (by omega)

/-- Two neighbouring lines could not have been one: the loop breaks only when it has to. -/
theorem wrap_greedy_loop (width : Nat) (hw : width < 2 ^ 32) : ∀ (ws g : List Str), g ≠ [] →
    (∀ t ∈ ws, t.length ≤ width) → (join [' '] g).length ≤ width →
    ∀ i a b, (wrapLoop width ws (join [' '] g) (BitVec.ofNat 64 (width - (join [' '] g).length)))[i]? = some a →
      (wrapLoop width ws (join [' '] g) (BitVec.ofNat 64 (width - (join [' '] g).length)))[i + 1]? = some b →
      ∃ w ∈ ws, w <+: b ∧ width < a.length + 1 + w.length := by
  intro ws
  induction ws with
  | nil =>
    intro g _ _ _ i a b h1 h2
    simp [wrapLoop] at h2
  | cons w ws ih =>
    intro g hg hs hl i a b h1 h2
    have hwl := hs w (List.mem_cons_self ..)
    have hs' := fun t ht => hs t (List.mem_cons_of_mem _ ht)
    have hfirst : ∀ (ws g : List Str) (left : BitVec 64), ∃ l rest, wrapLoop width ws (join [' '] g) left = l :: rest ∧ join [' '] g <+: l := by
      intro ws
      induction ws with
      | nil => intro g left; exact ⟨_, [], rfl, List.prefix_refl _⟩
      | cons x xs ih =>
        intro g left
        unfold wrapLoop
        split
        · exact ⟨_, _, rfl, List.prefix_refl _⟩
        · obtain ⟨l, r, h1, h2⟩ := ih [join [' '] g ++ ' ' :: x] (left - BitVec.ofNat 64 (x.length + 1))
          exact ⟨l, r, h1, (List.prefix_append ..).trans h2⟩
    unfold wrapLoop at h1 h2
    split at h1
    · rename_i hc
      rw [if_pos hc] at h2
      rw [BitVec.lt_def, BitVec.toNat_ofNat, BitVec.toNat_ofNat, Nat.mod_eq_of_lt (by omega), Nat.mod_eq_of_lt (by omega)] at hc
      rw [sub_ofNat hwl (by omega)] at h1 h2
      cases i with
      | zero =>
        simp only [List.getElem?_cons_zero, Option.some.injEq] at h1
        subst h1
        obtain ⟨l, rest, e, hp⟩ := hfirst ws [w] (BitVec.ofNat 64 (width - w.length))
        have e : wrapLoop width ws w (BitVec.ofNat 64 (width - w.length)) = l :: rest := e
        rw [e] at h2
        simp only [List.getElem?_cons_succ, List.getElem?_cons_zero, Option.some.injEq] at h2
        subst h2
        exact ⟨w, List.mem_cons_self .., hp, by omega⟩
      | succ i =>
        simp only [List.getElem?_cons_succ] at h1 h2
        obtain ⟨x, hx, h⟩ := ih [w] (by simp) hs' hwl i a b h1 h2
        exact ⟨x, List.mem_cons_of_mem _ hx, h⟩
    · rename_i hc
      rw [if_neg hc] at h2
      rw [BitVec.lt_def, BitVec.toNat_ofNat, BitVec.toNat_ofNat, Nat.mod_eq_of_lt (by omega), Nat.mod_eq_of_lt (by omega)] at hc
      have hj : join [' '] g ++ ' ' :: w = join [' '] (g ++ [w]) := by
        rw [join_snoc _ _ _ hg]; simp
      have hlen : (join [' '] (g ++ [w])).length = (join [' '] g).length + (w.length + 1) := by
        rw [← hj]; simp
      have e : width - (join [' '] g).length - (w.length + 1) = width - (join [' '] (g ++ [w])).length := by omega
      rw [hj, sub_ofNat (by omega) (by omega), e] at h1 h2
      obtain ⟨x, hx, h⟩ := ih (g ++ [w]) (by simp) hs' (by omega) i a b h1 h2
      exact ⟨x, List.mem_cons_of_mem _ hx, h⟩

/-- **C59, no needless breaks**: the first word of a line would not have fitted on the line before. -/
theorem wrap_greedy (text : Str) (width : Nat) (hw : width < 2 ^ 32)
    (hs : ∀ w ∈ wordsOf text, w.length ≤ width) (i : Nat) (a b : Str)
    (ha : (lineWrap text width)[i]? = some a) (hb : (lineWrap text width)[i + 1]? = some b) :
    ∃ w ∈ wordsOf text, w <+: b ∧ width < a.length + 1 + w.length := by
  unfold lineWrap at ha hb
  cases h : wordsOf text with
  | nil => rw [h] at hb; simp at hb
  | cons w ws =>
    rw [h] at ha hb hs
    have hfit := hs w (List.mem_cons_self ..)
    simp only [sub_ofNat hfit (show width < 2 ^ 64 by omega)] at ha hb
    obtain ⟨x, hx, hr⟩ := wrap_greedy_loop width hw ws [w] (by simp) (fun t ht => hs t (List.mem_cons_of_mem _ ht)) hfit i a b ha hb
    exact ⟨x, List.mem_cons_of_mem _ hx, hr⟩

/-- The failure, in general: once a word is longer than the width, the counter wraps below zero and
nothing behind that word is ever wrapped again. -/
theorem wrap_after_long_loop (width : Nat) : ∀ (ws g : List Str) (left : BitVec 64), g ≠ [] →
    (join [' '] ws).length + ws.length < left.toNat → wrapLoop width ws (join [' '] g) left = [join [' '] (g ++ ws)]
  | [], g, left, _, _ => by simp [wrapLoop]
  | w :: ws, g, left, hg, h => by
    have hlen : (join [' '] (w :: ws)).length + (w :: ws).length ≥ (w.length + 1) + ((join [' '] ws).length + ws.length) := by
      cases ws with
      | nil => simp [join]
      | cons a as => simp [join]; omega
    have hlt := left.isLt
    have hn : ¬ left < BitVec.ofNat 64 (w.length + 1) := by
      rw [BitVec.lt_def, BitVec.toNat_ofNat, Nat.mod_eq_of_lt (by omega)]; omega
    unfold wrapLoop
    rw [if_neg hn, show join [' '] g ++ ' ' :: w = join [' '] (g ++ [w]) by rw [join_snoc _ _ _ hg]; simp,
      wrap_after_long_loop width ws (g ++ [w]) _ (by simp) (by
        rw [BitVec.toNat_sub, BitVec.toNat_ofNat, Nat.mod_eq_of_lt (show w.length + 1 < 2 ^ 64 by omega)]; omega)]
    simp

/-- **C59, the failure**: a text whose first word is longer than the width is never broken at all. -/
theorem wrap_after_long (text : Str) (width : Nat) (w : Str) (ws : List Str) (hws : wordsOf text = w :: ws)
    (hlong : w.length > width) (hlen : w.length + (join [' '] ws).length + ws.length < 2 ^ 64) :
    lineWrap text width = [join [' '] (w :: ws)] := by
  unfold lineWrap
  rw [hws]
  refine wrap_after_long_loop width ws [w] _ (by simp) ?_
  rw [BitVec.toNat_sub, BitVec.toNat_ofNat, BitVec.toNat_ofNat]
  omega

theorem words_of_join {ts : List Str} (h : ∀ t ∈ ts, t ≠ [] ∧ Free spaces t) : wordsOf (join [' '] ts) = ts :=
  tokens_join _ _ (by simp) (by decide) _ h

/-- Hypotheses of `wrap_width` and `wrap_greedy` met, with a break. -/
example : (∀ w ∈ wordsOf (join [' '] ["ab".toList, "cd".toList, "e".toList]), w.length ≤ 5) ∧
    lineWrap (join [' '] ["ab".toList, "cd".toList, "e".toList]) 5 = ["ab cd".toList, "e".toList] := by
  have e := words_of_join (ts := ["ab".toList, "cd".toList, "e".toList]) (by decide)
  refine ⟨by rw [e]; decide, ?_⟩
  unfold lineWrap
  rw [e]
  decide

/-- The full claim is false: after an over-long word the line is not broken. -/
theorem not_WrapClaim : ¬ ∀ text width, WrapClaim text width := by
  intro h
  have e := words_of_join (ts := ["abc".toList, "d".toList]) (by decide)
  have h := h (join [' '] ["abc".toList, "d".toList]) 2
  unfold WrapClaim lineWrap at h
  rw [e] at h
  revert h
  decide

end Kratos.Text
