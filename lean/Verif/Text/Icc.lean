import Verif.Text.Coverage

/-!
# C114: reading the coverage report of ICC

Model of `get_icc_tokens` and `parse_icc_coverage` (src/fault.cc:615-705): from the text of a report to the statement blocks that
were executed.  `reverse_map_stmt`, `string::trim`, `std::getline` and `std::stoi` are those of `Verif/Text/Coverage.lean`.  A missing
file is not modelled.
-/

namespace Kratos.Icc

open Kratos.Text hiding Str
open Kratos.Cov

/-! ## Model -/

/-- `if (!buf.empty()) result.emplace_back(buf)`. -/
def push (buf : Str) : List Str := if buf = [] then [] else [buf]

/-- The loop of `get_icc_tokens`, src/fault.cc:620-635: a blank in front of a blank ends a token. -/
def scan : Str → Str → List Str
  | [], buf => push buf
  | c :: s, buf =>
    if c = ' ' ∧ s.head? = some ' ' then push (trim buf) ++ scan s []
    else scan s (buf ++ [c])

/-- `get_icc_tokens`, src/fault.cc:615-637. -/
def tokens (s : Str) : List Str := scan (trim s) []

/-- `line.find(tag)`: what stands behind the first occurrence. -/
def after (tag : Str) : Str → Option Str
  | [] => if tag = [] then some [] else none
  | c :: s => if tag.isPrefixOf (c :: s) then some ((c :: s).drop tag.length) else after tag s

def fileTag : Str := "File name:".toList
def countTag : Str := "Count  Block".toList

/-- `allowed_branch_kind`, src/fault.cc:682-683. -/
def branchKinds : List Str := ["true part of".toList, "false part of".toList, "a case item of".toList]

/-- The state of the machine, src/fault.cc:644-649. -/
inductive Q where
  | file
  | header (f : Str)
  | rows (f : Str)
  deriving DecidableEq, Repr

/-- A row of the table, src/fault.cc:673-698. -/
def row (f line : Str) : Res (Option Tup) :=
  match tokens line with
  | count :: _ :: ln :: kind :: _ :: _ :: _ =>
    if branchKinds.contains kind then
      (toU32 2147483648 count).bind fun c => (toU32 2147483648 ln).bind fun n =>
        if f = [] then .throw .user else .ok (some ⟨f, n, c⟩)
    else .ok none
  | _ => .throw .user

/-- One line, src/fault.cc:651-699. -/
def step (q : Q) (l : Str) : Res (Q × Option Tup) :=
  let line := trim l
  if line.head? = some '-' then .ok (q, none)
  else match q with
    | .file => match after fileTag line with
      | some r => .ok (.header (trim r), none)
      | none => .ok (.file, none)
    | .header f => .ok (if (after countTag line).isSome then .rows f else .header f, none)
    | .rows f => if line = [] then .ok (.file, none) else (row f line).bind fun t => .ok (.rows f, t)

/-- All lines, src/fault.cc:651-700. -/
def lines : Q → List Str → Res (List Tup)
  | _, [] => .ok []
  | q, l :: ls => (step q l).bind fun p => (lines p.1 ls).bind fun ts => .ok (p.2.toList ++ ts)

/-- `parse_icc_coverage`, src/fault.cc:639-705; `order` is the order of the `std::set`. -/
def parse (order : List Tup → List Tup) (blocks : List Blk) (text : Str) : Res (Map Nat Nat) :=
  (lines .file (getLines text)).bind fun ts => .ok (revMap (collect blocks []) (order ts) [])

/-! ## Specification -/

/-- A row of a report. -/
structure Row where
  count : Nat
  block : Nat
  line : Nat
  kind : Str
  origin : Nat
  source : Str

/-- A column of the table: the text, and blanks up to the width of the column, at least one. -/
def col (w : Nat) (s : Str) : Str := s ++ List.replicate (max 1 (w - s.length)) ' '

/-- How ICC writes a row; the columns begin at 0, 7, 13, 19, 40 and 47 (tests/vectors/icc_cov.txt). -/
def rowText (r : Row) : Str :=
  col 7 (printNat 10 r.count) ++ col 6 (printNat 10 r.block) ++ col 6 (printNat 10 r.line) ++ col 21 r.kind ++
    col 7 (printNat 10 r.origin) ++ r.source

def headText : Str := "Count  Block Line  Kind                 Origin Source Code".toList

/-- The part of the report about one instance: lines in front, the file, more lines, and the table, if there is one. -/
structure Sect where
  before : List Str
  file : Str
  between : List Str
  table : Option (List Row)

def sectLines (s : Sect) : List Str :=
  s.before ++ ("File name: ".toList ++ s.file) :: s.between ++
    match s.table with
    | some rows => headText :: List.replicate 78 '-' :: rows.map rowText ++ [[]]
    | none => []

def reportText (ss : List Sect) (tail : List Str) : Str := (ss.flatMap sectLines ++ tail).flatMap fun l => l ++ ['\n']

/-- White space. -/
def Blank (c : Char) : Prop := c = ' ' ∨ c = '\t' ∨ c = '\n' ∨ c = '\x0b' ∨ c = '\x0c' ∨ c = '\r'

/-- Not empty and without white space at its ends. -/
structure Tidy (s : Str) : Prop where
  first : ∃ c r, s = c :: r ∧ ¬ Blank c
  last : ∃ r c, s = r ++ [c] ∧ ¬ Blank c

def Has (tag s : Str) : Prop := ∃ a b, s = a ++ tag ++ b

/-- A kind is one of the three kinds of branches, or something else without two blanks in a row. -/
structure GoodRow (r : Row) : Prop where
  kind : Tidy r.kind ∧ ¬ Has [' ', ' '] r.kind ∧ '\n' ∉ r.kind
  source : Tidy r.source ∧ '\n' ∉ r.source
  range : r.count < 2147483648 ∧ r.line < 2147483648

structure GoodSect (s : Sect) : Prop where
  before : ∀ l ∈ s.before, ¬ Has "File name:".toList l ∧ '\n' ∉ l
  file : Tidy s.file ∧ '\n' ∉ s.file
  between : ∀ l ∈ s.between, ¬ Has "Count  Block".toList l ∧ ¬ Has "File name:".toList l ∧ '\n' ∉ l
  rows : ∀ rs, s.table = some rs → ∀ r ∈ rs, GoodRow r

/-- The row is about a branch. -/
def IsBranch (r : Row) : Prop :=
  r.kind = "true part of".toList ∨ r.kind = "false part of".toList ∨ r.kind = "a case item of".toList

/-- According to the report, the branch at this line of the file was taken `n` times. -/
def Taken (ss : List Sect) (f : Str) (ln n : Nat) : Prop :=
  ∃ s ∈ ss, ∃ rs r, s.table = some rs ∧ r ∈ rs ∧ IsBranch r ∧ s.file = f ∧ r.line = ln ∧ r.count = n

/-- C114 in full: every report is read, and the blocks reported are those whose branch was taken. -/
def IccClaim : Prop :=
  ∀ order blocks ss tail, IsOrder order → (blocks.map Blk.id).Nodup → Apart blocks → (∀ b ∈ blocks, b.fn ≠ []) →
    (∀ s ∈ ss, GoodSect s) → (∀ l ∈ tail, ¬ Has "File name:".toList l ∧ '\n' ∉ l) →
    ∃ m, parse order blocks (reportText ss tail) = .ok m ∧
      ∀ b ∈ blocks, m.has b.id = true ↔ ∃ f n, SameName f b.fn ∧ Taken ss f b.ln n ∧ 0 < n

/-- The numbers leave two blanks in their columns. -/
structure Fits (r : Row) : Prop where
  count : r.count < 100000
  block : r.block < 10000
  line : r.line < 10000
  kind : r.kind.length < 20
  origin : r.origin < 100000

/-! ## Words -/

theorem blank_iff (c : Char) : isSpace c = true ↔ Blank c := by
  simp only [isSpace, List.contains_iff_mem, List.mem_cons, List.not_mem_nil, or_false, Blank]

theorem not_blank {c : Char} (h : ¬ Blank c) : isSpace c = false := by
  rw [Bool.eq_false_iff]
  exact fun e => h ((blank_iff c).1 e)

theorem trim_tidy {s : Str} (h : Tidy s) : trim s = s := by
  obtain ⟨c, r, hs, hc⟩ := h.first
  obtain ⟨r', c', hs', hc'⟩ := h.last
  unfold trim
  rw [hs, List.dropWhile_cons_of_neg (by rw [not_blank hc]; decide), ← hs, hs', List.reverse_append, List.reverse_singleton,
    List.singleton_append, List.dropWhile_cons_of_neg (by rw [not_blank hc']; decide)]
  simp

theorem trim_blank {s : Str} (h : Tidy s) : trim (' ' :: s) = s := by
  have := trim_tidy h
  unfold trim at this ⊢
  rw [List.dropWhile_cons_of_pos (by decide)]
  exact this

theorem scan_cons {c : Char} {s buf : Str} (h : ¬ (c = ' ' ∧ s.head? = some ' ')) : scan (c :: s) buf = scan s (buf ++ [c]) := by
  rw [scan, if_neg h]

theorem scan_gap {s buf : Str} : scan (' ' :: ' ' :: s) buf = push (trim buf) ++ scan (' ' :: s) [] := by
  rw [scan, if_pos ⟨rfl, rfl⟩]

/-- A word without two blanks in a row is collected. -/
theorem scan_word : ∀ (w rest buf : Str), ¬ Has [' ', ' '] (w ++ rest.take 1) → scan (w ++ rest) buf = scan rest (buf ++ w)
  | [], rest, buf, _ => by simp
  | c :: w, rest, buf, h => by
    have h1 : ¬ (c = ' ' ∧ (w ++ rest).head? = some ' ') := by
      rintro ⟨rfl, h2⟩
      cases w with
      | nil =>
        cases rest with
        | nil => simp at h2
        | cons x xs =>
          simp at h2
          subst h2
          exact h ⟨[], [], rfl⟩
      | cons x xs =>
        simp at h2
        subst h2
        exact h ⟨[], xs ++ rest.take 1, by simp⟩
    rw [List.cons_append, scan_cons h1, scan_word w rest (buf ++ [c])]
    · simp
    · rintro ⟨a, b, e⟩
      exact h ⟨c :: a, b, by simp [e]⟩

theorem scan_blanks (c : Char) (hc : c ≠ ' ') (rest : Str) : ∀ n, scan (List.replicate (n + 1) ' ' ++ c :: rest) [] = scan (c :: rest) [' ']
  | 0 => by
    show scan (' ' :: c :: rest) [] = _
    rw [scan_cons]
    · rfl
    · rintro ⟨_, h⟩
      simp at h
      exact hc h
  | n + 1 => by
    show scan (' ' :: ' ' :: (List.replicate n ' ' ++ c :: rest)) [] = _
    rw [scan_gap]
    have : push (trim []) = [] := by rfl
    rw [this, List.nil_append]
    exact scan_blanks c hc rest n

theorem last_take {w : Str} {c : Char} (hw : ¬ Has [' ', ' '] w) (hl : ∃ r x, w = r ++ [x] ∧ ¬ Blank x) : ¬ Has [' ', ' '] (w ++ [c]) := by
  obtain ⟨r, x, hr, hx⟩ := hl
  rintro ⟨a, b, e⟩
  rcases List.eq_nil_or_concat b with rfl | ⟨b', y, rfl⟩
  · rw [List.append_nil, hr] at e
    have e' : r ++ [x] ++ [c] = (a ++ [' ']) ++ [' '] := by rw [e]; simp
    have := List.append_inj' e' rfl
    have := List.append_inj' this.1 rfl
    simp at this
    exact hx (Or.inl this.2)
  · rw [List.concat_eq_append, ← List.append_assoc] at e
    have := (List.append_inj' e rfl).1
    exact hw ⟨a, b', this⟩

/-- A column with at least two blanks behind its text is one token. -/
theorem scan_col {w : Str} (hw : Tidy w) (hg : ¬ Has [' ', ' '] w) (n : Nat) (c : Char) (hc : c ≠ ' ') (rest pre : Str) (hp : pre = [] ∨ pre = [' ']) :
    scan (w ++ (List.replicate (n + 2) ' ' ++ c :: rest)) pre = w :: scan (c :: rest) [' '] := by
  rw [scan_word w _ pre]
  · have e : List.replicate (n + 2) ' ' ++ c :: rest = ' ' :: ' ' :: (List.replicate n ' ' ++ c :: rest) := rfl
    rw [e, scan_gap]
    have ht : trim (pre ++ w) = w := by
      rcases hp with rfl | rfl
      · exact trim_tidy hw
      · exact trim_blank hw
    have hne : w ≠ [] := by
      obtain ⟨c, r, h, _⟩ := hw.first
      rw [h]
      simp
    rw [ht, push, if_neg hne]
    have := scan_blanks c hc rest n
    show w :: scan (List.replicate (n + 1) ' ' ++ c :: rest) [] = _
    rw [this]
  · exact last_take hg hw.last

theorem mem_takeWhile {x : Char} : ∀ {l : Str}, x ∈ l.takeWhile isSpace → isSpace x = true
  | y :: l, h => by
    rw [List.takeWhile_cons] at h
    split at h
    · rcases List.mem_cons.1 h with rfl | h
      · assumption
      · exact mem_takeWhile h
    · cases h

theorem scan_ne_nil : ∀ (s buf : Str), (∃ x ∈ buf ++ s, isSpace x = false) → scan s buf ≠ []
  | [], buf, ⟨x, hx, _⟩ => by
    rw [scan, push, if_neg]
    · simp
    · rintro rfl
      cases hx
  | c :: s, buf, ⟨x, hx, hb⟩ => by
    rw [scan]
    split
    · next h =>
      rcases List.mem_append.1 hx with hx | hx
      · have : trim buf ≠ [] := by
          intro e
          unfold trim at e
          have e : ∀ y ∈ (buf.dropWhile isSpace).reverse, isSpace y = true := by
            have e := List.reverse_eq_nil_iff.1 e
            have h2 := List.takeWhile_append_dropWhile (p := isSpace) (l := (buf.dropWhile isSpace).reverse)
            rw [e, List.append_nil] at h2
            intro y hy
            rw [← h2] at hy
            exact mem_takeWhile hy
          have hm : x ∈ (buf.dropWhile isSpace).reverse := by
            rw [List.mem_reverse]
            have h2 := List.takeWhile_append_dropWhile (p := isSpace) (l := buf)
            rw [← h2] at hx
            rcases List.mem_append.1 hx with hx | hx
            · rw [mem_takeWhile hx] at hb
              cases hb
            · exact hx
          rw [e x hm] at hb
          cases hb
        rw [push, if_neg this]
        simp
      · rcases List.mem_cons.1 hx with rfl | hx
        · rw [h.1] at hb
          cases hb
        · intro e
          rw [List.append_eq_nil_iff] at e
          exact scan_ne_nil s [] ⟨x, by simpa using hx, hb⟩ e.2
    · exact scan_ne_nil s (buf ++ [c]) ⟨x, by simpa using hx, hb⟩

/-! ## Rows -/

theorem dec_tidy (n : Nat) : Tidy (printNat 10 n) := by
  have hb : ∀ c ∈ printNat 10 n, ¬ Blank c := fun c h hb => by
    have := space_digit (Import.dec_digit h)
    rw [(blank_iff c).2 hb] at this
    cases this
  have hne := printNat_ne_nil 10 n
  constructor
  · cases h : printNat 10 n with
    | nil => exact absurd h hne
    | cons c r => exact ⟨c, r, rfl, hb c (by rw [h]; simp)⟩
  · rcases List.eq_nil_or_concat (printNat 10 n) with h | ⟨r, c, h⟩
    · exact absurd h hne
    · rw [List.concat_eq_append] at h
      exact ⟨r, c, h, hb c (by rw [h]; simp)⟩

theorem dec_gap (n : Nat) : ¬ Has [' ', ' '] (printNat 10 n) := by
  rintro ⟨a, b, h⟩
  exact absurd rfl (Import.dec_ne (n := n) (c := ' ') (x := ' ') (by rw [h]; simp) (by decide))

theorem dec_nl (n : Nat) : '\n' ∉ printNat 10 n := fun h => absurd rfl (Import.dec_ne h (x := '\n') (by decide))

theorem aux_length : ∀ (k f n : Nat) (acc : Str), n < 10 ^ (k + 1) → (printAux 10 f n acc).length ≤ k + 1 + acc.length
  | _, 0, _, acc, _ => by simp [printAux]
  | 0, f + 1, n, acc, h => by
    have h10 : n < 10 := by simpa using h
    rw [printAux]
    simp only [Nat.div_eq_of_lt h10]
    simp
    omega
  | k + 1, f + 1, n, acc, h => by
    rw [printAux]
    split
    · simp
      omega
    · have := aux_length k f (n / 10) (digitChar (n % 10) :: acc) (by
        rw [Nat.div_lt_iff_lt_mul (by decide)]
        rw [Nat.pow_succ] at h
        exact h)
      simp only [List.length_cons] at this
      omega

theorem dec_length {k n : Nat} (h : n < 10 ^ (k + 1)) : (printNat 10 n).length ≤ k + 1 := aux_length k (n + 1) n [] h

theorem col_fits {w : Nat} {s : Str} (h : s.length + 2 ≤ w) : ∃ n, col w s = s ++ List.replicate (n + 2) ' ' := by
  refine ⟨w - s.length - 2, ?_⟩
  unfold col
  congr 2
  omega

theorem last_append {a b s : Str} (e : s = a ++ b) (h : ∃ r c, b = r ++ [c] ∧ ¬ Blank c) : ∃ r c, s = r ++ [c] ∧ ¬ Blank c := by
  obtain ⟨r, c, rfl, hc⟩ := h
  exact ⟨a ++ r, c, by rw [e, List.append_assoc], hc⟩

theorem row_tokens {r : Row} (hg : GoodRow r) (hf : Fits r) : ∃ t ts,
    tokens (rowText r) = printNat 10 r.count :: printNat 10 r.block :: printNat 10 r.line :: r.kind :: printNat 10 r.origin :: t :: ts := by
  obtain ⟨n1, e1⟩ := col_fits (w := 7) (s := printNat 10 r.count) (by have := dec_length (k := 4) hf.count; omega)
  obtain ⟨n2, e2⟩ := col_fits (w := 6) (s := printNat 10 r.block) (by have := dec_length (k := 3) hf.block; omega)
  obtain ⟨n3, e3⟩ := col_fits (w := 6) (s := printNat 10 r.line) (by have := dec_length (k := 3) hf.line; omega)
  obtain ⟨n4, e4⟩ := col_fits (w := 21) (s := r.kind) (by have := hf.kind; omega)
  obtain ⟨n5, e5⟩ := col_fits (w := 7) (s := printNat 10 r.origin) (by have := dec_length (k := 4) hf.origin; omega)
  have e : rowText r = printNat 10 r.count ++ (List.replicate (n1 + 2) ' ' ++ (printNat 10 r.block ++ (List.replicate (n2 + 2) ' ' ++
      (printNat 10 r.line ++ (List.replicate (n3 + 2) ' ' ++ (r.kind ++ (List.replicate (n4 + 2) ' ' ++ (printNat 10 r.origin ++
      (List.replicate (n5 + 2) ' ' ++ r.source))))))))) := by
    unfold rowText
    rw [e1, e2, e3, e4, e5]
    simp only [List.append_assoc]
  have ht : Tidy (rowText r) := by
    obtain ⟨c, q, h, hc⟩ := (dec_tidy r.count).first
    constructor
    · exact ⟨c, _, by rw [e, h]; rfl, hc⟩
    · exact last_append (by unfold rowText; rfl) hg.source.1.last
  unfold tokens
  rw [trim_tidy ht, e]
  have step : ∀ {w : Str} (_ : Tidy w) (_ : ¬ Has [' ', ' '] w) (n : Nat) {x : Str} (_ : Tidy x) (y pre : Str) (_ : pre = [] ∨ pre = [' ']),
      scan (w ++ (List.replicate (n + 2) ' ' ++ (x ++ y))) pre = w :: scan (x ++ y) [' '] := by
    intro w hw hg n x hx y pre hp
    obtain ⟨c, q, h, hc⟩ := hx.first
    rw [h]
    exact scan_col hw hg n c (fun e => hc (Or.inl e)) _ pre hp
  rw [step (dec_tidy _) (dec_gap _) n1 (dec_tidy r.block) _ [] (Or.inl rfl),
    step (dec_tidy _) (dec_gap _) n2 (dec_tidy r.line) _ _ (Or.inr rfl),
    step (dec_tidy _) (dec_gap _) n3 hg.kind.1 _ _ (Or.inr rfl),
    step hg.kind.1 hg.kind.2.1 n4 (dec_tidy r.origin) _ _ (Or.inr rfl)]
  have h5 := step (dec_tidy r.origin) (dec_gap _) n5 hg.source.1 [] [' '] (Or.inr rfl)
  rw [List.append_nil] at h5
  rw [h5]
  have hne : scan r.source [' '] ≠ [] := by
    obtain ⟨c, q, h, hc⟩ := hg.source.1.first
    exact scan_ne_nil _ _ ⟨c, by rw [h]; simp, not_blank hc⟩
  cases hs : scan r.source [' '] with
  | nil => exact absurd hs hne
  | cons t ts => exact ⟨t, ts, rfl⟩

theorem branch_iff (r : Row) : branchKinds.contains r.kind = true ↔ IsBranch r := by
  simp only [branchKinds, List.contains_iff_mem, List.mem_cons, List.not_mem_nil, or_false, IsBranch]

/-- What a row says. -/
def rowTup (f : Str) (r : Row) : Option Tup := if branchKinds.contains r.kind then some ⟨f, r.line, r.count⟩ else none

theorem row_read {r : Row} (hg : GoodRow r) (hf : Fits r) {f : Str} (hne : f ≠ []) : row f (rowText r) = .ok (rowTup f r) := by
  obtain ⟨t, ts, e⟩ := row_tokens hg hf
  unfold row
  rw [e]
  dsimp only
  unfold rowTup
  split
  · rw [toU32_dec hg.range.1, Res.ok_bind, toU32_dec hg.range.2, Res.ok_bind, Nat.mod_eq_of_lt (by have := hg.range.2; omega),
      Nat.mod_eq_of_lt (by have := hg.range.1; omega)]
  · rfl

theorem rowText_tidy {r : Row} (hg : GoodRow r) : Tidy (rowText r) ∧ (rowText r).head? ≠ some '-' := by
  have e : rowText r = printNat 10 r.count ++ (List.replicate (max 1 (7 - (printNat 10 r.count).length)) ' ' ++ (col 6 (printNat 10 r.block) ++
      (col 6 (printNat 10 r.line) ++ (col 21 r.kind ++ (col 7 (printNat 10 r.origin) ++ r.source))))) := by
    simp only [rowText, col, List.append_assoc]
  obtain ⟨c, q, h, hc⟩ := (dec_tidy r.count).first
  refine ⟨⟨⟨c, _, by rw [e, h]; rfl, hc⟩, last_append (by unfold rowText; rfl) hg.source.1.last⟩, ?_⟩
  · rw [e, h]
    simp only [List.cons_append, List.head?_cons, ne_eq, Option.some.injEq]
    have : c ∈ printNat 10 r.count := by rw [h]; simp
    exact Import.dec_ne this (by decide)

/-! ## Lines -/

theorem has_cons {tag : Str} {c : Char} {s : Str} (h : Has tag s) : Has tag (c :: s) := by
  obtain ⟨a, b, rfl⟩ := h
  exact ⟨c :: a, b, by simp⟩

theorem after_none : ∀ {tag s : Str}, tag ≠ [] → ¬ Has tag s → after tag s = none
  | tag, [], ht, _ => by rw [after, if_neg ht]
  | tag, c :: s, ht, h => by
    rw [after, if_neg]
    · exact after_none ht fun h' => h (has_cons h')
    · intro hp
      rw [List.isPrefixOf_iff_prefix] at hp
      obtain ⟨b, hb⟩ := hp
      exact h ⟨[], b, by simp [hb]⟩

theorem after_some {tag s : Str} (ht : tag ≠ []) : after tag (tag ++ s) = some s := by
  cases tag with
  | nil => exact absurd rfl ht
  | cons c t =>
    rw [List.cons_append, after, if_pos]
    · simp
    · rw [List.isPrefixOf_iff_prefix]
      exact ⟨s, by simp⟩

theorem trim_has {tag s : Str} (h : Has tag (trim s)) : Has tag s := by
  obtain ⟨a, b, e⟩ := h
  have h1 := List.takeWhile_append_dropWhile (p := isSpace) (l := s)
  have h2 := List.takeWhile_append_dropWhile (p := isSpace) (l := (s.dropWhile isSpace).reverse)
  have h3 : s.dropWhile isSpace = trim s ++ ((s.dropWhile isSpace).reverse.takeWhile isSpace).reverse := by
    rw [trim, ← List.reverse_append, h2, List.reverse_reverse]
  refine ⟨s.takeWhile isSpace ++ a, b ++ ((s.dropWhile isSpace).reverse.takeWhile isSpace).reverse, ?_⟩
  conv => lhs; rw [← h1, h3, e]
  simp only [List.append_assoc]

theorem step_noise {l : Str} (h : ¬ Has "File name:".toList l) : step .file l = .ok (.file, none) := by
  unfold step
  dsimp only
  split
  · rfl
  · rw [after_none (tag := fileTag) (by decide) (fun h' => h (trim_has h'))]

theorem step_file {f : Str} (h : Tidy f) : step .file ("File name: ".toList ++ f) = .ok (.header f, none) := by
  have ht : Tidy ("File name: ".toList ++ f) := by
    obtain ⟨q', c', h', hc'⟩ := h.last
    refine ⟨⟨'F', _, rfl, ?_⟩, ⟨"File name: ".toList ++ q', c', by rw [h', List.append_assoc], hc'⟩⟩
    unfold Blank
    decide
  unfold step
  dsimp only
  rw [trim_tidy ht, if_neg (by simp)]
  have : "File name: ".toList ++ f = fileTag ++ (' ' :: f) := by
    show _ = "File name:".toList ++ (' ' :: f)
    have e : "File name: ".toList = "File name:".toList ++ [' '] := by decide
    rw [e, List.append_assoc]
    rfl
  rw [this, after_some (by decide)]
  dsimp only
  rw [trim_blank h]

theorem step_between {f l : Str} (h : ¬ Has "Count  Block".toList l) : step (.header f) l = .ok (.header f, none) := by
  unfold step
  dsimp only
  split
  · rfl
  · rw [after_none (tag := countTag) (by decide) (fun h' => h (trim_has h'))]
    rfl

theorem step_head (f : Str) : step (.header f) headText = .ok (.rows f, none) := by
  have h1 : (trim headText).head? ≠ some '-' := by decide +kernel
  have h2 : (after countTag (trim headText)).isSome = true := by decide +kernel
  unfold step
  dsimp only
  rw [if_neg h1, if_pos h2]

theorem step_dashes (f : Str) : step (.rows f) (List.replicate 78 '-') = .ok (.rows f, none) := by
  have h1 : (trim (List.replicate 78 '-')).head? = some '-' := by decide +kernel
  unfold step
  dsimp only
  rw [if_pos h1]

theorem step_row {f : Str} (hf : f ≠ []) {r : Row} (hg : GoodRow r) (hr : Fits r) : step (.rows f) (rowText r) = .ok (.rows f, rowTup f r) := by
  obtain ⟨ht, hd⟩ := rowText_tidy hg
  unfold step
  dsimp only
  rw [trim_tidy ht, if_neg hd, if_neg, row_read hg hr hf, Res.ok_bind]
  obtain ⟨c, q, h, _⟩ := ht.first
  rw [h]
  simp

theorem step_end (f : Str) : step (.rows f) [] = .ok (.file, none) := by rfl

/-- Reading some lines and going on from the state reached. -/
def Reads (q : Q) (ls : List Str) (q' : Q) (ts : List Tup) : Prop :=
  ∀ rest, lines q (ls ++ rest) = (lines q' rest).bind fun us => .ok (ts ++ us)

theorem reads_nil (q : Q) : Reads q [] q [] := by
  intro rest
  simp

theorem Reads.append {q q' q'' : Q} {a b : List Str} {s t : List Tup} (h1 : Reads q a q' s) (h2 : Reads q' b q'' t) :
    Reads q (a ++ b) q'' (s ++ t) := by
  intro rest
  rw [List.append_assoc, h1, h2]
  cases lines q'' rest <;> simp [Res.bind]

theorem reads_one {q q' : Q} {l : Str} {o : Option Tup} (h : step q l = .ok (q', o)) : Reads q [l] q' o.toList := by
  intro rest
  show lines q (l :: rest) = _
  rw [lines, h, Res.ok_bind]

theorem reads_same {q : Q} : ∀ {ls : List Str}, (∀ l ∈ ls, step q l = .ok (q, none)) → Reads q ls q []
  | [], _ => reads_nil q
  | l :: ls, h => (reads_one (h l List.mem_cons_self)).append (reads_same fun l hl => h l (List.mem_cons_of_mem _ hl))

theorem reads_rows {f : Str} (hf : f ≠ []) : ∀ {rs : List Row}, (∀ r ∈ rs, GoodRow r ∧ Fits r) →
    Reads (.rows f) (rs.map rowText) (.rows f) (rs.filterMap (rowTup f))
  | [], _ => reads_nil _
  | r :: rs, h => by
    have h1 := reads_one (step_row hf (h r List.mem_cons_self).1 (h r List.mem_cons_self).2)
    have := h1.append (reads_rows hf fun r hr => h r (List.mem_cons_of_mem _ hr))
    rw [List.filterMap_cons]
    cases ho : rowTup f r with
    | none => rw [ho] at this; exact this
    | some t => rw [ho] at this; exact this

/-- What a section with a table says. -/
def sectTups (s : Sect) : List Tup :=
  match s.table with
  | some rs => rs.filterMap (rowTup s.file)
  | none => []

theorem reads_sect {s : Sect} (hg : GoodSect s) {rs : List Row} (ht : s.table = some rs) (hf : ∀ r ∈ rs, Fits r) :
    Reads .file (sectLines s) .file (sectTups s) := by
  have hne : s.file ≠ [] := by
    obtain ⟨c, r, h, _⟩ := hg.file.1.first
    rw [h]
    simp
  have h1 := reads_same (q := .file) fun l hl => step_noise (hg.before l hl).1
  have h2 := reads_one (step_file hg.file.1)
  have h3 := reads_same (q := .header s.file) fun l hl => step_between (hg.between l hl).1
  have h4 := reads_one (step_head s.file)
  have h5 := reads_one (step_dashes s.file)
  have h6 := reads_rows hne (rs := rs) fun r hr => ⟨hg.rows rs ht r hr, hf r hr⟩
  have h7 := reads_one (step_end s.file)
  have := (((((h1.append h2).append h3).append h4).append h5).append h6).append h7
  unfold sectLines sectTups
  rw [ht]
  simpa using this

theorem reads_sects : ∀ (ss : List Sect), (∀ s ∈ ss, GoodSect s) → (∀ s ∈ ss, ∃ rs, s.table = some rs ∧ ∀ r ∈ rs, Fits r) →
    Reads .file (ss.flatMap sectLines) .file (ss.flatMap sectTups)
  | [], _, _ => reads_nil _
  | s :: ss, h1, h2 => by
    obtain ⟨rs, ht, hf⟩ := h2 s List.mem_cons_self
    rw [List.flatMap_cons, List.flatMap_cons]
    exact (reads_sect (h1 s List.mem_cons_self) ht hf).append
      (reads_sects ss (fun s hs => h1 s (List.mem_cons_of_mem _ hs)) fun s hs => h2 s (List.mem_cons_of_mem _ hs))

theorem getLines_text : ∀ (ls : List Str), (∀ l ∈ ls, '\n' ∉ l) → getLines (ls.flatMap fun l => l ++ ['\n']) = ls
  | [], _ => rfl
  | l :: ls, h => by
    rw [List.flatMap_cons]
    have : l ++ ['\n'] ++ ls.flatMap (fun l => l ++ ['\n']) = l ++ '\n' :: ls.flatMap (fun l => l ++ ['\n']) := by simp
    rw [this, getLines_cons (h l List.mem_cons_self), getLines_text ls fun l hl => h l (List.mem_cons_of_mem _ hl)]

theorem col_nl {w : Nat} {s : Str} (h : '\n' ∉ s) : '\n' ∉ col w s := by
  unfold col
  rw [List.mem_append, not_or]
  refine ⟨h, fun hm => ?_⟩
  have := List.eq_of_mem_replicate hm
  revert this
  decide

theorem sect_nl {s : Sect} (hg : GoodSect s) : ∀ l ∈ sectLines s, '\n' ∉ l := by
  intro l hl
  unfold sectLines at hl
  simp only [List.mem_append, List.mem_cons] at hl
  rcases hl with (hl | rfl | hl) | hl
  · exact (hg.before l hl).2
  · rw [List.mem_append, not_or]
    exact ⟨by decide, hg.file.2⟩
  · exact (hg.between l hl).2.2
  · cases ht : s.table with
    | none => rw [ht] at hl; cases hl
    | some rs =>
      rw [ht] at hl
      simp only [List.mem_append, List.mem_cons, List.mem_map, List.not_mem_nil, or_false] at hl
      rcases hl with (rfl | rfl | ⟨r, hr, rfl⟩) | rfl
      · decide +kernel
      · decide +kernel
      · have hg' := hg.rows rs ht r hr
        simp only [rowText, List.mem_append, not_or]
        exact ⟨⟨⟨⟨⟨col_nl (dec_nl _), col_nl (dec_nl _)⟩, col_nl (dec_nl _)⟩, col_nl hg'.kind.2.2⟩, col_nl (dec_nl _)⟩, hg'.source.2⟩
      · simp

theorem lines_report {ss : List Sect} {tail : List Str} (hg : ∀ s ∈ ss, GoodSect s) (ht : ∀ l ∈ tail, ¬ Has "File name:".toList l ∧ '\n' ∉ l)
    (hf : ∀ s ∈ ss, ∃ rs, s.table = some rs ∧ ∀ r ∈ rs, Fits r) :
    lines .file (getLines (reportText ss tail)) = .ok (ss.flatMap sectTups) := by
  unfold reportText
  rw [getLines_text]
  · have h1 := reads_sects ss hg hf
    have h2 := reads_same (q := .file) fun l hl => step_noise (ht l hl).1
    have := (h1.append h2) []
    rw [List.append_nil] at this
    rw [this]
    simp [lines]
  · intro l hl
    rcases List.mem_append.1 hl with hl | hl
    · obtain ⟨s, hs, hl⟩ := List.mem_flatMap.1 hl
      exact sect_nl (hg s hs) l hl
    · exact (ht l hl).2

theorem mem_tups {ss : List Sect} {t : Tup} : t ∈ ss.flatMap sectTups ↔ Taken ss t.fn t.ln t.count := by
  rw [List.mem_flatMap]
  constructor
  · rintro ⟨s, hs, ht⟩
    unfold sectTups at ht
    cases htab : s.table with
    | none => rw [htab] at ht; cases ht
    | some rs =>
      rw [htab] at ht
      obtain ⟨r, hr, he⟩ := List.mem_filterMap.1 ht
      unfold rowTup at he
      split at he
      · next hk =>
        cases he
        exact ⟨s, hs, rs, r, htab, hr, (branch_iff r).1 hk, rfl, rfl, rfl⟩
      · cases he
  · rintro ⟨s, hs, rs, r, htab, hr, hk, h1, h2, h3⟩
    refine ⟨s, hs, ?_⟩
    unfold sectTups
    rw [htab]
    refine List.mem_filterMap.2 ⟨r, hr, ?_⟩
    unfold rowTup
    rw [if_pos ((branch_iff r).2 hk), h1, h2, h3]

/-! ## Theorems -/

/-- From entries of the set to blocks (compare C108). -/
theorem blocks_of (order : List Tup → List Tup) (ho : IsOrder order) (blocks : List Blk) (ts : List Tup)
    (hid : (blocks.map Blk.id).Nodup) (ha : Apart blocks) (hfn : ∀ b ∈ blocks, b.fn ≠ []) :
    (∀ i, Map.has (revMap (collect blocks []) (order ts) []) i = true → ∃ b ∈ blocks, b.id = i) ∧
    (∀ b ∈ blocks, Map.has (revMap (collect blocks []) (order ts) []) b.id = true ↔
      ∃ t ∈ ts, SameName t.fn b.fn ∧ t.ln = b.ln ∧ 0 < t.count) ∧
    ∀ b ∈ blocks, ∀ c, Map.find (revMap (collect blocks []) (order ts) []) b.id = some c →
      ∃ t ∈ ts, SameName t.fn b.fn ∧ t.ln = b.ln ∧ t.count = c := by
  have key : ∀ b ∈ blocks, ∀ c, Map.find (revMap (collect blocks []) (order ts) []) b.id = some c →
      ∃ t ∈ ts, SameName t.fn b.fn ∧ t.ln = b.ln ∧ t.count = c ∧ 0 < t.count := by
    intro b hb c hc
    rcases find_revMap _ _ _ _ _ hc with h | ⟨t, ht, h0, h3, h6⟩
    · cases h
    · rcases find_collect _ _ _ _ h3 with h | ⟨b', hb', _, h5, h4⟩
      · cases h
      · have := inj_of_nodup hid hb' hb h4
        subst this
        simp only [Prod.mk.injEq] at h5
        exact ⟨t, (ho ts t).1 ht, sameName_iff.2 h5.1, h5.2, h6, Nat.pos_of_ne_zero h0⟩
  refine ⟨?_, ?_, ?_⟩
  · intro i hi
    obtain ⟨c, hc⟩ := Option.isSome_iff_exists.1 hi
    rcases find_revMap _ _ _ _ _ hc with h | ⟨t, _, _, h3, _⟩
    · cases h
    · rcases find_collect _ _ _ _ h3 with h | ⟨b, hb, _, _, h4⟩
      · cases h
      · exact ⟨b, hb, h4⟩
  · intro b hb
    constructor
    · intro h
      obtain ⟨c, hc⟩ := Option.isSome_iff_exists.1 h
      obtain ⟨t, ht, h1, h2, _, h3⟩ := key b hb c hc
      exact ⟨t, ht, h1, h2, h3⟩
    · rintro ⟨t, ht, h1, h2, h3⟩
      apply revMap_has
      refine Or.inr ⟨t, (ho ts t).2 ht, by omega, ?_⟩
      rw [sameName_iff.1 h1, h2]
      exact collect_block ha hb (hfn b hb)
  · intro b hb c hc
    obtain ⟨t, ht, h1, h2, h3, _⟩ := key b hb c hc
    exact ⟨t, ht, h1, h2, h3⟩

/-- C114, partial: a report in which every section has a table and the numbers leave two blanks in their columns is read, and exactly the
blocks are reported whose branch was taken, with the count of such a row.  What is missing is false: `busy_refused`, `far_lost`,
`no_table`. -/
theorem icc_partial (order : List Tup → List Tup) (ho : IsOrder order) (blocks : List Blk) (ss : List Sect) (tail : List Str)
    (hid : (blocks.map Blk.id).Nodup) (ha : Apart blocks) (hfn : ∀ b ∈ blocks, b.fn ≠ []) (hg : ∀ s ∈ ss, GoodSect s)
    (ht : ∀ l ∈ tail, ¬ Has "File name:".toList l ∧ '\n' ∉ l) (hf : ∀ s ∈ ss, ∃ rs, s.table = some rs ∧ ∀ r ∈ rs, Fits r) :
    ∃ m, parse order blocks (reportText ss tail) = .ok m ∧
      (∀ i, m.has i = true → ∃ b ∈ blocks, b.id = i) ∧
      (∀ b ∈ blocks, m.has b.id = true ↔ ∃ f n, SameName f b.fn ∧ Taken ss f b.ln n ∧ 0 < n) ∧
      ∀ b ∈ blocks, ∀ c, m.find b.id = some c → ∃ f, SameName f b.fn ∧ Taken ss f b.ln c := by
  obtain ⟨h1, h2, h3⟩ := blocks_of order ho blocks (ss.flatMap sectTups) hid ha hfn
  refine ⟨_, by unfold parse; rw [lines_report hg ht hf, Res.ok_bind], h1, ?_, ?_⟩
  · intro b hb
    rw [h2 b hb]
    constructor
    · rintro ⟨t, ht, hs, hl, hc⟩
      exact ⟨t.fn, t.count, hs, hl ▸ mem_tups.1 ht, hc⟩
    · rintro ⟨f, n, hs, htk, hn⟩
      exact ⟨⟨f, b.ln, n⟩, mem_tups.2 htk, hs, rfl, hn⟩
  · intro b hb c hc
    obtain ⟨t, ht, hs, hl, e⟩ := h3 b hb c hc
    refine ⟨t.fn, hs, ?_⟩
    have := mem_tups.1 ht
    rw [hl, e] at this
    exact this

/-- A line that was not finished: what was read before it stays. -/
theorem lines_append : ∀ (q : Q) (a b : List Str) (ts : List Tup), lines q (a ++ b) = .ok ts → ∃ s, lines q a = .ok s ∧ s <+: ts
  | _, [], _, _, _ => ⟨[], rfl, List.nil_prefix⟩
  | q, l :: a, b, ts, h => by
    rw [List.cons_append, lines] at h
    simp only [Res.bind_eq_ok] at h
    obtain ⟨p, hp, us, hus, he⟩ := h
    cases he
    obtain ⟨s, hs, c, hc⟩ := lines_append p.1 a b us hus
    refine ⟨p.2.toList ++ s, ?_, c, ?_⟩
    · rw [lines, hp, Res.ok_bind, hs, Res.ok_bind]
    · rw [List.append_assoc, hc]

/-- A report that was cut off between two lines names only blocks that the whole report names. -/
theorem cut_report (order : List Tup → List Tup) (ho : IsOrder order) (blocks : List Blk) (hid : (blocks.map Blk.id).Nodup) (ha : Apart blocks)
    (hfn : ∀ b ∈ blocks, b.fn ≠ []) (a b : List Str) (hl : ∀ l ∈ a ++ b, '\n' ∉ l) (m : Map Nat Nat)
    (h : parse order blocks ((a ++ b).flatMap fun l => l ++ ['\n']) = .ok m) :
    ∃ m', parse order blocks (a.flatMap fun l => l ++ ['\n']) = .ok m' ∧ ∀ x ∈ blocks, m'.has x.id = true → m.has x.id = true := by
  unfold parse at h ⊢
  rw [getLines_text _ hl] at h
  rw [getLines_text _ fun l h => hl l (List.mem_append_left _ h)]
  simp only [Res.bind_eq_ok] at h
  obtain ⟨ts, hts, he⟩ := h
  cases he
  obtain ⟨s, hs, hp⟩ := lines_append _ a b ts hts
  refine ⟨_, by rw [hs, Res.ok_bind], ?_⟩
  intro x hx h
  rw [(blocks_of order ho blocks s hid ha hfn).2.1 x hx] at h
  obtain ⟨t, ht, r⟩ := h
  exact ((blocks_of order ho blocks ts hid ha hfn).2.1 x hx).2 ⟨t, hp.subset ht, r⟩

/-! ## Examples and witnesses -/

def rowA : Row := ⟨1, 2, 11, "true part of".toList, 11, "if (sel) begin".toList⟩
def rowB : Row := ⟨0, 3, 14, "false part of".toList, 11, "else begin".toList⟩
def rowC : Row := ⟨1, 1, 10, "code block".toList, 10, "always_comb begin".toList⟩
def sectA : Sect := ⟨["Instance name: TOP.mod".toList], "/tmp/test/test.sv".toList, ["Number of covered blocks: 2 of 3".toList, []], some [rowC, rowA, rowB]⟩

def blks : List Blk := [⟨0, "test.sv".toList, 11⟩, ⟨1, "test.sv".toList, 14⟩, ⟨2, "test.sv".toList, 10⟩]

/-- The branch that was taken is reported, the other one and the ordinary block are not. -/
example : parse id blks (reportText [sectA] []) = .ok [(0, 1)] := by decide +kernel

/-- A block that was entered 100000 times fills its column: the report is refused. -/
def busy : Row := { rowA with count := 100000 }
theorem busy_refused : parse id blks (reportText [{ sectA with table := some [busy] }] []) = .throw .user := by decide +kernel

/-- A branch at line 10000, with two blanks in its source text: the row is read as another kind and lost. -/
def far : Row := { rowA with line := 10000, source := "if (a  && b)".toList }
theorem far_lost : parse id [⟨0, "test.sv".toList, 10000⟩] (reportText [{ sectA with table := some [far] }] []) = .ok [] := by decide +kernel

/-- A section without a table: the rows of the next one are attributed to its file. -/
def bare : Sect := ⟨[], "/tmp/test/a.sv".toList, [], none⟩
theorem no_table : parse id [⟨0, "a.sv".toList, 11⟩, ⟨1, "test.sv".toList, 11⟩] (reportText [bare, sectA] []) = .ok [(0, 1)] := by decide +kernel

theorem tidy_of {s : Str} {c d : Char} {r q : Str} (h1 : s = c :: r) (h2 : s = q ++ [d]) (hc : isSpace c = false) (hd : isSpace d = false) : Tidy s :=
  ⟨⟨c, r, h1, fun h => by rw [(blank_iff c).2 h] at hc; cases hc⟩, ⟨q, d, h2, fun h => by rw [(blank_iff d).2 h] at hd; cases hd⟩⟩

/-- Decides whether a tag occurs. -/
theorem not_has {tag s : Str} (ht : tag ≠ []) (h : after tag s = none) : ¬ Has tag s := by
  rintro ⟨a, b, rfl⟩
  induction a with
  | nil =>
    rw [List.nil_append, after_some ht] at h
    cases h
  | cons c a ih =>
    rw [List.cons_append, List.cons_append, after] at h
    split at h
    · cases h
    · exact ih h

theorem goodA : GoodSect sectA := by
  have rows : ∀ r ∈ [rowC, rowA, rowB], GoodRow r := by
    intro r hr
    simp only [List.mem_cons, List.not_mem_nil, or_false] at hr
    rcases hr with rfl | rfl | rfl
    · exact ⟨⟨tidy_of (c := 'c') (d := 'k') (q := "code bloc".toList) rfl (by decide) (by decide) (by decide), not_has (by decide) (by decide +kernel), by decide⟩,
        ⟨tidy_of (c := 'a') (d := 'n') (q := "always_comb begi".toList) rfl (by decide) (by decide) (by decide), by decide⟩, by decide, by decide⟩
    · exact ⟨⟨tidy_of (c := 't') (d := 'f') (q := "true part o".toList) rfl (by decide) (by decide) (by decide), not_has (by decide) (by decide +kernel), by decide⟩,
        ⟨tidy_of (c := 'i') (d := 'n') (q := "if (sel) begi".toList) rfl (by decide) (by decide) (by decide), by decide⟩, by decide, by decide⟩
    · exact ⟨⟨tidy_of (c := 'f') (d := 'f') (q := "false part o".toList) rfl (by decide) (by decide) (by decide), not_has (by decide) (by decide +kernel), by decide⟩,
        ⟨tidy_of (c := 'e') (d := 'n') (q := "else begi".toList) rfl (by decide) (by decide) (by decide), by decide⟩, by decide, by decide⟩
  refine ⟨?_, ⟨tidy_of (c := '/') (d := 'v') (q := "/tmp/test/test.s".toList) rfl (by decide) (by decide) (by decide), by decide⟩, ?_, ?_⟩
  · intro l hl
    simp only [sectA, List.mem_cons, List.not_mem_nil, or_false] at hl
    subst hl
    exact ⟨not_has (by decide) (by decide +kernel), by decide⟩
  · intro l hl
    simp only [sectA, List.mem_cons, List.not_mem_nil, or_false] at hl
    rcases hl with rfl | rfl
    · exact ⟨not_has (by decide) (by decide +kernel), not_has (by decide) (by decide +kernel), by decide⟩
    · exact ⟨not_has (by decide) (by decide +kernel), not_has (by decide) (by decide +kernel), by decide⟩
  · intro rs h
    cases h
    exact rows

/-- The hypotheses of `icc_partial`. -/
example : (∀ s ∈ [sectA], GoodSect s) ∧ ∀ s ∈ [sectA], ∃ rs, s.table = some rs ∧ ∀ r ∈ rs, Fits r := by
  refine ⟨by simpa using goodA, ?_⟩
  intro s hs
  simp only [List.mem_cons, List.not_mem_nil, or_false] at hs
  subst hs
  refine ⟨_, rfl, ?_⟩
  intro r hr
  simp only [List.mem_cons, List.not_mem_nil, or_false] at hr
  rcases hr with rfl | rfl | rfl <;> exact ⟨by decide, by decide, by decide, by decide, by decide⟩

theorem not_IccClaim : ¬ IccClaim := by
  intro h
  obtain ⟨m, hm, _⟩ := h id blks [{ sectA with table := some [busy] }] [] (fun _ _ => Iff.rfl) (by decide) (by
    intro a ha b hb _ e
    simp only [blks, List.mem_cons, List.not_mem_nil, or_false] at ha hb
    rcases ha with rfl | rfl | rfl <;> rcases hb with rfl | rfl | rfl <;> first | rfl | (revert e; decide)) (by
    intro b hb
    simp only [blks, List.mem_cons, List.not_mem_nil, or_false] at hb
    rcases hb with rfl | rfl | rfl <;> decide) (by
    intro s hs
    simp only [List.mem_cons, List.not_mem_nil, or_false] at hs
    subst hs
    refine ⟨goodA.before, goodA.file, goodA.between, ?_⟩
    intro rs e r hr
    cases e
    simp only [List.mem_cons, List.not_mem_nil, or_false] at hr
    subst hr
    have := goodA.rows _ rfl rowA (by simp)
    exact ⟨this.kind, this.source, by decide, by decide⟩) (by simp)
  rw [busy_refused] at hm
  cases hm

end Kratos.Icc
