import Verif.Base
import Verif.Util.Map
import Verif.Text.Digits
import Verif.Text.Import

/-!
# C108: reading the coverage file of Verilator

Model of `parse_verilator_coverage` and `reverse_map_stmt` (src/fault.cc:508-613): from the text of a
coverage file to the set of statement blocks that were executed.  A missing file is not modelled, and
`fs::basename` is modelled as on a system with `std::filesystem` and `/` between directories.
-/

namespace Kratos.Cov

open Kratos.Text

abbrev Str := List Char

/-! ## Model -/

/-- A scope block of the design: its identity, the file of its generator and its line in it. -/
structure Blk where
  id : Nat
  fn : Str
  ln : Nat
  deriving DecidableEq, Repr

/-- `fs::basename`, src/util.cc:567-570. -/
def baseName (s : Str) : Str := (s.reverse.takeWhile (fun c => c != '/')).reverse

/-- `CollectScopeStmtVisitor`, src/fault.cc:508-526, over the blocks in the order of the visit. -/
def collect : List Blk → Map (Str × Nat) Nat → Map (Str × Nat) Nat
  | [], m => m
  | b :: bs, m => collect bs (if b.fn = [] then m else m.emplace (baseName b.fn, b.ln) b.id)

/-- An entry of the set `parse_result`: file, line, count. -/
structure Tup where
  fn : Str
  ln : Nat
  count : Nat
  deriving DecidableEq, Repr

/-- The loop of `reverse_map_stmt`, src/fault.cc:534-542. -/
def revMap (map : Map (Str × Nat) Nat) : List Tup → Map Nat Nat → Map Nat Nat
  | [], m => m
  | t :: ts, m =>
      revMap map ts (if t.count = 0 then m else match map.find (baseName t.fn, t.ln) with
        | some i => m.emplace i t.count
        | none => m)

/-- `std::getline` until the end of the file. -/
def getLines : Str → List Str
  | [] => []
  | c :: s => if c = '\n' then [] :: getLines s else match getLines s with
      | [] => [[c]]
      | l :: ls => (c :: l) :: ls

/-- `std::isspace` -/
def isSpace (c : Char) : Bool := [' ', '\t', '\n', '\x0b', '\x0c', '\r'].contains c

/-- `string::trim`, src/util.cc:590-604. -/
def trim (s : Str) : Str := ((s.dropWhile isSpace).reverse.dropWhile isSpace).reverse

/-- The digits of `std::stol` and `std::stoi`. -/
def digits (s : Str) : Res Int := match readNat 10 (takeDigits 10 s).1 with
  | some n => .ok n
  | none => .throw .invalidArg

/-- `std::strtol`: blanks, a sign, digits. -/
def number (s : Str) : Res Int := match s.dropWhile isSpace with
  | '-' :: r => (digits r).bind fun n => .ok (-n)
  | '+' :: r => digits r
  | r => digits r

/-- `std::stol` (`half` is 2^63) and `std::stoi` (`half` is 2^31), converted to uint32_t. -/
def toU32 (half : Nat) (s : Str) : Res Nat := (number s).bind fun n =>
  if n < -(half : Int) ∨ (half : Int) ≤ n then .throw .outOfRange else .ok (n % 4294967296).toNat

/-- The states of the small machine, src/fault.cc:556-560. -/
inductive Q where
  | none | key | val
  deriving DecidableEq, Repr

/-- The machine, src/fault.cc:562-592: the data, and what stands behind the closing quote. -/
def scan : Str → Q → Str → Str → Map Str Str → Res (Map Str Str × Option Str)
  | [], _, _, _, data => .ok (data, none)
  | c :: s, .none, key, buf, data => if c = '\x01' then scan s .key key buf data else scan s .none key buf data
  | c :: s, .key, key, buf, data => if c = '\x02' then scan s .val buf [] data else scan s .key key (buf ++ [c]) data
  | c :: s, .val, key, buf, data =>
      if c = '\'' ∨ c = '\x01' then
        if key = [] then .throw .user
        else if c = '\x01' then scan s .key [] [] (data.emplace key buf)
        else .ok (data.emplace key buf, some s)
      else scan s .val key (buf ++ [c]) data

def kPage : Str := ['p', 'a', 'g', 'e']
def kLine : Str := ['v', '_', 'l', 'i', 'n', 'e']
def kF : Str := ['f']
def kL : Str := ['l']

/-- The rest of a line, src/fault.cc:593-609. -/
def finish (data : Map Str Str) (rest : Option Str) : Res (Option Tup) := match data.find kPage with
  | none => .throw .user
  | some page =>
    if page.take 6 ≠ kLine then .ok none
    else match rest with
      | none => .throw .user
      | some [] => .throw .user
      | some r => (toU32 9223372036854775808 (trim r)).bind fun count =>
          match data.find kF, data.find kL with
          | some f, some l => (toU32 2147483648 l).bind fun ln => .ok (some ⟨f, ln, count⟩)
          | _, _ => .throw .user

/-- One line, src/fault.cc:550-609. -/
def oneLine (line : Str) : Res (Option Tup) :=
  if line.head? ≠ some 'C' then .ok none
  else (scan (line.drop 2) .none [] [] []).bind fun p => finish p.1 p.2

/-- All lines. -/
def allLines : List Str → Res (List Tup)
  | [] => .ok []
  | l :: ls => (oneLine l).bind fun o => (allLines ls).bind fun ts => .ok (o.toList ++ ts)

/-- `parse_verilator_coverage`, src/fault.cc:545-613; `order` is the order in which the `std::set` gives its
elements back. -/
def parse (order : List Tup → List Tup) (blocks : List Blk) (text : Str) : Res (Map Nat Nat) :=
  (allLines (getLines text)).bind fun ts => .ok (revMap (collect blocks []) (order ts) [])

/-! ## Specification -/

/-- A coverage point: named fields and a count. -/
structure Point where
  fields : List (Str × Str)
  count : Nat

/-- How Verilator writes a point: `C '`, the fields, `' ` and the count. -/
def pointText (p : Point) : Str :=
  ['C', ' ', '\''] ++ p.fields.flatMap (fun kv => '\x01' :: kv.1 ++ '\x02' :: kv.2) ++ ['\'', ' '] ++ printNat 10 p.count

/-- A line of the file. -/
inductive Line where
  | other (s : Str)
  | point (p : Point)

def lineText : Line → Str
  | .other s => s
  | .point p => pointText p

def fileText (ls : List Line) : Str := ls.flatMap fun l => lineText l ++ ['\n']

/-- The file and the line of a point. -/
def At (p : Point) (f : Str) (n : Nat) : Prop := (['f'], f) ∈ p.fields ∧ (['l'], printNat 10 n) ∈ p.fields

/-- A point of line coverage. -/
def IsLine (p : Point) : Prop := ∃ x, (['p', 'a', 'g', 'e'], ['v', '_', 'l', 'i', 'n', 'e'] ++ x) ∈ p.fields

/-- The fields have different names; control characters, quotes and line ends stand in none; the type, the file and
the line are given. -/
structure GoodPoint (p : Point) : Prop where
  names : (p.fields.map (·.1)).Nodup
  key : ∀ kv ∈ p.fields, kv.1 ≠ [] ∧ '\x02' ∉ kv.1 ∧ '\n' ∉ kv.1
  quote : ∀ kv ∈ p.fields, '\'' ∉ kv.1
  val : ∀ kv ∈ p.fields, '\x01' ∉ kv.2 ∧ '\'' ∉ kv.2 ∧ '\n' ∉ kv.2
  page : ∃ v, (['p', 'a', 'g', 'e'], v) ∈ p.fields
  place : ∃ f n, At p f n ∧ n < 2147483648

def GoodLine : Line → Prop
  | .other s => '\n' ∉ s ∧ s.head? ≠ some 'C'
  | .point p => GoodPoint p

/-- A point of line coverage in the file was passed at least once, at this place. -/
def Passed (ls : List Line) (f : Str) (n : Nat) : Prop :=
  ∃ p, .point p ∈ ls ∧ IsLine p ∧ At p f n ∧ 0 < p.count

/-- The name of a file without its directories. -/
def IsBase (s b : Str) : Prop := '/' ∉ b ∧ (s = b ∨ ∃ d, s = d ++ '/' :: b)

def SameName (s t : Str) : Prop := ∃ b, IsBase s b ∧ IsBase t b

/-- The order in which a set is read: its elements. -/
def IsOrder (order : List Tup → List Tup) : Prop := ∀ l x, x ∈ order l ↔ x ∈ l

/-- C108 in full: for every design and every coverage file, exactly the blocks are reported whose place was
passed. -/
def CoverageClaim : Prop :=
  ∀ order blocks ls, IsOrder order → (blocks.map Blk.id).Nodup → (blocks.map fun b => (b.fn, b.ln)).Nodup →
    (∀ b ∈ blocks, b.fn ≠ []) → (∀ l ∈ ls, GoodLine l) → (∀ p, Line.point p ∈ ls → p.count < 9223372036854775808) →
    ∃ m, parse order blocks (fileText ls) = .ok m ∧ ∀ b ∈ blocks, m.has b.id = true ↔ Passed ls b.fn b.ln

/-! ## Text -/

theorem getLines_cons {l r : Str} (h : '\n' ∉ l) : getLines (l ++ '\n' :: r) = l :: getLines r := by
  induction l with
  | nil => simp [getLines]
  | cons c l ih =>
    have h1 : c ≠ '\n' := fun e => h (by simp [e])
    rw [List.cons_append, getLines, if_neg h1, ih (fun e => h (by simp [e]))]

theorem getLines_file (ls : List Line) (h : ∀ l ∈ ls, '\n' ∉ lineText l) : getLines (fileText ls) = ls.map lineText := by
  induction ls with
  | nil => rfl
  | cons l ls ih =>
    have : fileText (l :: ls) = lineText l ++ '\n' :: fileText ls := by simp [fileText]
    rw [this, getLines_cons (h l (by simp)), ih fun x hx => h x (by simp [hx])]
    rfl

theorem scan_key : ∀ (k : Str) (s key buf : Str) (data), '\x02' ∉ k →
    scan (k ++ '\x02' :: s) .key key buf data = scan s .val (buf ++ k) [] data
  | [], s, key, buf, data, _ => by simp [scan]
  | c :: k, s, key, buf, data, h => by
      have h1 : c ≠ '\x02' := fun e => h (by simp [e])
      rw [List.cons_append, scan, if_neg h1, scan_key k s key _ data (fun e => h (by simp [e]))]
      simp

theorem scan_val : ∀ (v : Str) (s key buf : Str) (data), '\x01' ∉ v → '\'' ∉ v →
    scan (v ++ s) .val key buf data = scan s .val key (buf ++ v) data
  | [], s, key, buf, data, _, _ => by simp
  | c :: v, s, key, buf, data, h1, h2 => by
      have h3 : ¬ (c = '\'' ∨ c = '\x01') := by
        rintro (e | e)
        · exact h2 (by simp [e])
        · exact h1 (by simp [e])
      rw [List.cons_append, scan, if_neg h3, scan_val v s key _ data (fun e => h1 (by simp [e])) (fun e => h2 (by simp [e]))]
      simp

/-- What the machine has read at the end. -/
def gather : List (Str × Str) → Map Str Str → Map Str Str
  | [], m => m
  | kv :: r, m => gather r (m.emplace kv.1 kv.2)

/-- One field, up to the next mark. -/
theorem scan_fields (tail : Str) : ∀ (fs : List (Str × Str)) (k v : Str) (data : Map Str Str),
    (∀ kv ∈ (k, v) :: fs, kv.1 ≠ [] ∧ '\x02' ∉ kv.1 ∧ '\x01' ∉ kv.2 ∧ '\'' ∉ kv.2) →
    scan (k ++ '\x02' :: (v ++ (fs.flatMap (fun kv => '\x01' :: kv.1 ++ '\x02' :: kv.2) ++ '\'' :: tail))) .key [] [] data =
      .ok (gather ((k, v) :: fs) data, some tail)
  | [], k, v, data, h => by
      obtain ⟨h1, h2, h3, h4⟩ := h (k, v) (by simp)
      rw [scan_key k _ _ _ _ h2, scan_val v _ _ _ _ h3 h4]
      have h1' : k ≠ [] := h1
      simp [scan, h1', gather]
  | (k', v') :: fs, k, v, data, h => by
      obtain ⟨h1, h2, h3, h4⟩ := h (k, v) (by simp)
      have h1' : k ≠ [] := h1
      have ih := scan_fields tail fs k' v' (data.emplace k v) fun kv hkv => h kv (List.mem_cons_of_mem _ hkv)
      rw [scan_key k _ _ _ _ h2, scan_val v _ _ _ _ h3 h4]
      simp only [List.flatMap_cons, List.cons_append, List.append_assoc, List.nil_append, scan, or_true, if_true, h1',
        if_false]
      simp only [List.cons_append] at ih
      rw [ih]
      rfl

theorem find_gather : ∀ (fs : List (Str × Str)) (m : Map Str Str) (k : Str),
    Map.find (gather fs m) k = (Map.find m k).or (Map.find (K := Str) (V := Str) fs k)
  | [], m, k => by simp [gather, Map.find]
  | kv :: fs, m, k => by
      obtain ⟨a, b⟩ := kv
      simp only [gather]
      rw [find_gather fs]
      rw [Map.find_emplace]
      simp only [Map.find]
      by_cases e : k = a
      · subst e
        cases Map.find m k <;> simp
      · rw [if_neg e, if_neg (fun h => e h.symm)]

theorem takeDigits_self {n : Nat} : (takeDigits 10 (printNat 10 n)).1 = printNat 10 n := by
  have := takeDigits_append 10 (printNat 10 n) [] (printNat_digits (Or.inl rfl) n) (by simp)
  rw [List.append_nil] at this
  rw [this]

theorem space_digit {c : Char} (h : 48 ≤ c.toNat ∧ c.toNat ≤ 57) : isSpace c = false := by
  rw [Bool.eq_false_iff]
  intro hs
  simp only [isSpace, List.contains_iff_mem, List.mem_cons, List.not_mem_nil, or_false] at hs
  rcases hs with rfl | rfl | rfl | rfl | rfl | rfl <;> revert h <;> decide

theorem dropSpace_dec (n : Nat) (r : Str) : (printNat 10 n ++ r).dropWhile isSpace = printNat 10 n ++ r := by
  cases h : printNat 10 n with
  | nil => exact absurd h (printNat_ne_nil 10 n)
  | cons c cs =>
    have := space_digit (Import.dec_digit (n := n) (c := c) (by simp [h]))
    simp [this]

theorem number_dec (n : Nat) : number (printNat 10 n) = .ok (n : Int) := by
  have h0 := dropSpace_dec n []
  rw [List.append_nil] at h0
  have hd : digits (printNat 10 n) = .ok (n : Int) := by
    simp only [digits, takeDigits_self, readNat_printNat (Or.inl rfl) n]
  unfold number
  rw [h0]
  cases h : printNat 10 n with
  | nil => exact absurd h (printNat_ne_nil 10 n)
  | cons c cs =>
    have hc := Import.dec_digit (n := n) (c := c) (by simp [h])
    split
    · rename_i r e
      simp only [List.cons.injEq] at e
      rw [e.1] at hc; exact absurd hc (by decide)
    · rename_i r e
      simp only [List.cons.injEq] at e
      rw [e.1] at hc; exact absurd hc (by decide)
    · rw [← h, hd]

theorem toU32_dec {half n : Nat} (h : n < half) : toU32 half (printNat 10 n) = .ok (n % 4294967296) := by
  unfold toU32
  rw [number_dec, Res.ok_bind, if_neg (by omega)]
  congr 1

theorem trim_dec (n : Nat) : trim (' ' :: printNat 10 n) = printNat 10 n := by
  have h0 := dropSpace_dec n []
  rw [List.append_nil] at h0
  unfold trim
  rw [List.dropWhile_cons_of_pos (by decide), h0]
  have hne := printNat_ne_nil 10 n
  cases h : (printNat 10 n).reverse with
  | nil => exact absurd (List.reverse_eq_nil_iff.1 h) hne
  | cons c cs =>
    have hm : c ∈ printNat 10 n := by rw [← List.mem_reverse, h]; simp
    rw [List.dropWhile_cons_of_neg (by rw [space_digit (Import.dec_digit hm)]; decide), ← h, List.reverse_reverse]

/-! ## One point -/

theorem printNat_inj {a b : Nat} (h : printNat 10 a = printNat 10 b) : a = b := by
  have := readNat_printNat (b := 10) (Or.inl rfl) a
  rw [h, readNat_printNat (Or.inl rfl) b] at this
  exact (Option.some.inj this).symm

theorem page_iff {p : Point} (hp : GoodPoint p) {v : Str} (hv : (['p', 'a', 'g', 'e'], v) ∈ p.fields) :
    v.take 6 = kLine ↔ IsLine p := by
  constructor
  · intro h
    refine ⟨v.drop 6, ?_⟩
    have : ['v', '_', 'l', 'i', 'n', 'e'] ++ v.drop 6 = v := by
      have e := List.take_append_drop 6 v
      rw [h] at e
      exact e
    rw [this]; exact hv
  · rintro ⟨x, hx⟩
    have h1 := Map.find_of_mem (m := p.fields) hp.names hx
    rw [Map.find_of_mem (m := p.fields) hp.names hv] at h1
    rw [Option.some.inj h1]
    rfl

/-- A point gives its place and its count, if it is of line coverage. -/
theorem oneLine_point {p : Point} (hp : GoodPoint p) (hc : p.count < 9223372036854775808) :
    ∃ o, oneLine (pointText p) = .ok o ∧
      (∀ f n, At p f n → IsLine p → o = some ⟨f, n, p.count % 4294967296⟩) ∧ (¬ IsLine p → o = none) := by
  obtain ⟨v, hv⟩ := hp.page
  obtain ⟨f, n, ⟨hf, hl⟩, hn⟩ := hp.place
  have hfind : ∀ k x, (k, x) ∈ p.fields → Map.find (gather p.fields []) k = some x := by
    intro k x hx
    rw [find_gather]
    simp only [Map.find, Option.none_or]
    exact Map.find_of_mem (m := p.fields) hp.names hx
  have hscan : scan ((pointText p).drop 2) .none [] [] [] = .ok (gather p.fields [], some (' ' :: printNat 10 p.count)) := by
    cases hfs : p.fields with
    | nil => rw [hfs] at hv; cases hv
    | cons kv fs =>
      obtain ⟨k, x⟩ := kv
      have := scan_fields (' ' :: printNat 10 p.count) fs k x [] (by
        intro kv' h'
        rw [← hfs] at h'
        exact ⟨(hp.key kv' h').1, (hp.key kv' h').2.1, (hp.val kv' h').1, (hp.val kv' h').2.1⟩)
      rw [← this]
      simp only [pointText, hfs, List.flatMap_cons, List.cons_append, List.nil_append, List.append_assoc, List.drop_succ_cons,
        List.drop_zero]
      rw [scan, if_neg (by decide), scan, if_pos rfl]
  have hfin : finish (gather p.fields []) (some (' ' :: printNat 10 p.count)) =
      if v.take 6 ≠ kLine then .ok none else .ok (some ⟨f, n, p.count % 4294967296⟩) := by
    unfold finish
    rw [hfind kPage v hv, hfind kF f hf, hfind kL _ hl]
    simp only
    split
    · rfl
    · rw [trim_dec, toU32_dec hc, Res.ok_bind, toU32_dec hn, Res.ok_bind, Nat.mod_eq_of_lt (by omega : n < 4294967296)]
  have hone : oneLine (pointText p) = finish (gather p.fields []) (some (' ' :: printNat 10 p.count)) := by
    unfold oneLine
    rw [if_neg (by simp [pointText]), hscan, Res.ok_bind]
  refine ⟨if v.take 6 ≠ kLine then none else some ⟨f, n, p.count % 4294967296⟩, ?_, ?_, ?_⟩
  · rw [hone, hfin]; split <;> rfl
  · intro f' n' ⟨hf', hl'⟩ hline
    rw [if_neg (fun h => h ((page_iff hp hv).2 hline))]
    have e1 := hfind _ _ hf'
    rw [hfind _ _ hf] at e1
    have e2 := hfind _ _ hl'
    rw [hfind _ _ hl] at e2
    rw [Option.some.inj e1, printNat_inj (Option.some.inj e2)]
  · intro hline
    rw [if_pos (fun h => hline ((page_iff hp hv).1 h))]

theorem oneLine_other {s : Str} (h : s.head? ≠ some 'C') : oneLine s = .ok none := by
  unfold oneLine
  rw [if_pos h]

theorem point_text {p : Point} (hp : GoodPoint p) : '\n' ∉ pointText p := by
  intro h
  simp only [pointText, List.mem_append, List.mem_cons, List.not_mem_nil, or_false, List.mem_flatMap] at h
  rcases h with ((h | ⟨kv, h1, h2⟩) | h) | h
  · revert h; decide
  · rcases h2 with (h2 | h2) | h2 | h2
    · exact absurd h2 (by decide)
    · exact (hp.key kv h1).2.2 h2
    · exact absurd h2 (by decide)
    · exact (hp.val kv h1).2.2 h2
  · revert h; decide
  · exact Import.dec_ne h (by decide) rfl

/-- The whole file. -/
theorem allLines_file (ls : List Line) (hg : ∀ l ∈ ls, GoodLine l)
    (hc : ∀ p, Line.point p ∈ ls → p.count < 9223372036854775808) :
    ∃ ts, allLines (ls.map lineText) = .ok ts ∧
      ∀ t, t ∈ ts ↔ ∃ p, .point p ∈ ls ∧ IsLine p ∧ At p t.fn t.ln ∧ t.count = p.count % 4294967296 := by
  induction ls with
  | nil => exact ⟨[], rfl, by simp⟩
  | cons l ls ih =>
    obtain ⟨ts, h1, h2⟩ := ih (fun x hx => hg x (by simp [hx])) (fun p hp => hc p (by simp [hp]))
    cases l with
    | other s =>
      refine ⟨ts, ?_, ?_⟩
      · simp only [List.map_cons, allLines, lineText]
        rw [oneLine_other (hg (.other s) (by simp)).2, Res.ok_bind, h1, Res.ok_bind]
        rfl
      · intro t
        rw [h2 t]
        simp
    | point q =>
      have hq : GoodPoint q := hg (.point q) (by simp)
      obtain ⟨o, ho, ho1, ho2⟩ := oneLine_point hq (hc q (by simp))
      refine ⟨o.toList ++ ts, ?_, ?_⟩
      · simp only [List.map_cons, allLines, lineText]
        rw [ho, Res.ok_bind, h1, Res.ok_bind]
      · intro t
        rw [List.mem_append, h2 t]
        constructor
        · rintro (h | ⟨p, hp, h⟩)
          · by_cases hl : IsLine q
            · obtain ⟨f, n, hat, _⟩ := hq.place
              rw [ho1 f n hat hl] at h
              simp only [Option.toList_some, List.mem_singleton] at h
              subst h
              exact ⟨q, by simp, hl, hat, rfl⟩
            · rw [ho2 hl] at h; simp at h
          · exact ⟨p, by simp [hp], h⟩
        · rintro ⟨p, hp, hl, hat, hcount⟩
          rcases List.mem_cons.1 hp with e | hp
          · left
            have e' : p = q := by injection e
            subst e'
            rw [ho1 t.fn t.ln hat hl, ← hcount]
            simp
          · exact Or.inr ⟨p, hp, hl, hat, hcount⟩

/-! ## Back to the blocks -/

theorem base_split (s : Str) : IsBase s (baseName s) := by
  have h1 : '/' ∉ baseName s := by
    intro h
    rw [baseName, List.mem_reverse] at h
    have := List.all_takeWhile (p := fun c => c != '/') (l := s.reverse)
    rw [List.all_eq_true] at this
    exact absurd (this _ h) (by decide)
  refine ⟨h1, ?_⟩
  have e := List.takeWhile_append_dropWhile (p := fun c => c != '/') (l := s.reverse)
  cases hd : s.reverse.dropWhile (fun c => c != '/') with
  | nil =>
    left
    rw [hd, List.append_nil] at e
    rw [baseName, e, List.reverse_reverse]
  | cons c r =>
    right
    have hc : c = '/' := by
      have := List.head?_dropWhile_not (fun c => c != '/') s.reverse
      rw [hd] at this
      simpa using this
    refine ⟨r.reverse, ?_⟩
    have e2 : s = (s.reverse.takeWhile (fun c => c != '/') ++ c :: r).reverse := by
      rw [← hd, e, List.reverse_reverse]
    rw [hc] at e2
    simp only [List.reverse_append, List.reverse_cons, List.append_assoc, List.cons_append, List.nil_append] at e2
    exact e2

theorem base_unique {s a b : Str} (ha : IsBase s a) (hb : IsBase s b) : a = b := by
  have key : ∀ (x y d : Str), '/' ∉ x → x ≠ d ++ '/' :: y := by
    intro x y d h e
    exact h (by rw [e]; simp)
  obtain ⟨ha0, ha1⟩ := ha
  obtain ⟨hb0, hb1⟩ := hb
  rcases ha1 with rfl | ⟨d, rfl⟩
  · rcases hb1 with e | ⟨d, e⟩
    · exact e
    · exact absurd e (key _ _ _ ha0)
  · rcases hb1 with e | ⟨d', e⟩
    · exact absurd e.symm (key _ _ _ hb0)
    · rcases List.append_eq_append_iff.1 e with ⟨u, h1, h2⟩ | ⟨u, h1, h2⟩
      · cases u with
        | nil => simpa using h2
        | cons c u =>
          simp only [List.cons_append, List.cons.injEq] at h2
          exact absurd h2.2 (key _ _ _ ha0)
      · cases u with
        | nil => simpa using h2.symm
        | cons c u =>
          simp only [List.cons_append, List.cons.injEq] at h2
          exact absurd h2.2 (key _ _ _ hb0)

theorem sameName_iff {s t : Str} : SameName s t ↔ baseName s = baseName t := by
  constructor
  · rintro ⟨b, h1, h2⟩
    rw [base_unique (base_split s) h1, base_unique (base_split t) h2]
  · intro h
    exact ⟨baseName s, base_split s, by rw [h]; exact base_split t⟩

/-- No two blocks have the same line in files of the same name. -/
def Apart (blocks : List Blk) : Prop :=
  ∀ a ∈ blocks, ∀ b ∈ blocks, SameName a.fn b.fn → a.ln = b.ln → a = b

theorem find_collect : ∀ (bs : List Blk) (m : Map (Str × Nat) Nat) (k : Str × Nat) (i : Nat),
    Map.find (collect bs m) k = some i → Map.find m k = some i ∨ ∃ b ∈ bs, b.fn ≠ [] ∧ k = (baseName b.fn, b.ln) ∧ b.id = i
  | [], m, k, i, h => Or.inl h
  | b :: bs, m, k, i, h => by
      rcases find_collect bs _ k i h with h | ⟨b', h1, h2⟩
      · by_cases e : b.fn = []
        · rw [if_pos e] at h; exact Or.inl h
        · rw [if_neg e, Map.find_emplace] at h
          by_cases ek : k = (baseName b.fn, b.ln)
          · rw [if_pos ek] at h
            cases hm : Map.find m (baseName b.fn, b.ln) with
            | none =>
              rw [hm] at h
              simp only [Option.getD_none, Option.some.injEq] at h
              exact Or.inr ⟨b, by simp, e, ek, h⟩
            | some j => rw [hm] at h; left; rw [ek, hm]; exact h
          · rw [if_neg ek] at h; exact Or.inl h
      · exact Or.inr ⟨b', by simp [h1], h2⟩

theorem collect_has : ∀ (bs : List Blk) (m : Map (Str × Nat) Nat) (k : Str × Nat),
    ((Map.find m k).isSome ∨ ∃ b ∈ bs, b.fn ≠ [] ∧ k = (baseName b.fn, b.ln)) → (Map.find (collect bs m) k).isSome
  | [], m, k, h => by
      rcases h with h | ⟨b, h, _⟩
      · exact h
      · cases h
  | b :: bs, m, k, h => by
      apply collect_has bs
      rcases h with h | ⟨b', h1, h2, h3⟩
      · left
        by_cases e : b.fn = []
        · rw [if_pos e]; exact h
        · rw [if_neg e, Map.find_emplace]; split
          · rfl
          · exact h
      · rcases List.mem_cons.1 h1 with rfl | h1
        · left
          rw [if_neg h2, Map.find_emplace, if_pos h3]; rfl
        · exact Or.inr ⟨b', h1, h2, h3⟩

/-- Where a block is found. -/
theorem collect_block {blocks : List Blk} (ha : Apart blocks) {b : Blk} (hb : b ∈ blocks) (hf : b.fn ≠ []) :
    Map.find (collect blocks []) (baseName b.fn, b.ln) = some b.id := by
  have h1 := collect_has blocks [] (baseName b.fn, b.ln) (Or.inr ⟨b, hb, hf, rfl⟩)
  obtain ⟨i, hi⟩ := Option.isSome_iff_exists.1 h1
  rcases find_collect _ _ _ _ hi with h | ⟨b', h2, h3, h4, h5⟩
  · cases h
  · simp only [Prod.mk.injEq] at h4
    have := ha b hb b' h2 (sameName_iff.2 h4.1) h4.2
    rw [hi, ← h5, this]

theorem find_revMap (mp : Map (Str × Nat) Nat) : ∀ (ts : List Tup) (m : Map Nat Nat) (i c : Nat),
    Map.find (revMap mp ts m) i = some c →
      Map.find m i = some c ∨ ∃ t ∈ ts, t.count ≠ 0 ∧ Map.find mp (baseName t.fn, t.ln) = some i ∧ t.count = c
  | [], m, i, c, h => Or.inl h
  | t :: ts, m, i, c, h => by
      rcases find_revMap mp ts _ i c h with h | ⟨t', h1, h2⟩
      · by_cases e : t.count = 0
        · rw [if_pos e] at h; exact Or.inl h
        · rw [if_neg e] at h
          cases hm : Map.find mp (baseName t.fn, t.ln) with
          | none => rw [hm] at h; exact Or.inl h
          | some j =>
            rw [hm] at h
            simp only [Map.find_emplace] at h
            by_cases ei : i = j
            · subst ei
              rw [if_pos rfl] at h
              cases hmi : Map.find m i with
              | none =>
                rw [hmi] at h
                exact Or.inr ⟨t, by simp, e, hm, by simpa using h⟩
              | some c' => rw [hmi] at h; exact Or.inl h
            · rw [if_neg ei] at h; exact Or.inl h
      · exact Or.inr ⟨t', by simp [h1], h2⟩

theorem revMap_has (mp : Map (Str × Nat) Nat) : ∀ (ts : List Tup) (m : Map Nat Nat) (i : Nat),
    ((Map.find m i).isSome ∨ ∃ t ∈ ts, t.count ≠ 0 ∧ Map.find mp (baseName t.fn, t.ln) = some i) →
      (Map.find (revMap mp ts m) i).isSome
  | [], m, i, h => by
      rcases h with h | ⟨t, h, _⟩
      · exact h
      · cases h
  | t :: ts, m, i, h => by
      apply revMap_has mp ts
      rcases h with h | ⟨t', h1, h2, h3⟩
      · left
        by_cases e : t.count = 0
        · rw [if_pos e]; exact h
        · rw [if_neg e]
          cases Map.find mp (baseName t.fn, t.ln) with
          | none => exact h
          | some j =>
            simp only [Map.find_emplace]
            split
            · rfl
            · exact h
      · rcases List.mem_cons.1 h1 with rfl | h1
        · left
          rw [if_neg h2, h3]
          simp only [Map.find_emplace, if_true]
          rfl
        · exact Or.inr ⟨t', h1, h2, h3⟩

theorem inj_of_nodup {α β : Type} {f : α → β} : ∀ {l : List α}, (l.map f).Nodup → ∀ {a b}, a ∈ l → b ∈ l → f a = f b → a = b
  | [], _, _, _, h, _, _ => by cases h
  | x :: l, hn, a, b, ha, hb, e => by
      rw [List.map_cons, List.nodup_cons] at hn
      rcases List.mem_cons.1 ha with h1 | h1 <;> rcases List.mem_cons.1 hb with h2 | h2
      · rw [h1, h2]
      · exact absurd (List.mem_map.2 ⟨b, h2, by rw [← e, h1]⟩) hn.1
      · exact absurd (List.mem_map.2 ⟨a, h1, by rw [e, h2]⟩) hn.1
      · exact inj_of_nodup hn.2 h1 h2 e

/-! ## Theorems -/

/-- C108, partial: if no two blocks have the same line in files of the same name, and the counts are below 2^32, the
file is read and exactly the blocks are reported that were passed according to a point of the file at the line of the
block in a file of the same name; the number reported is the count of such a point.  What is missing is false:
`count_lost`, `same_name`. -/
theorem coverage_partial (order : List Tup → List Tup) (ho : IsOrder order) (blocks : List Blk) (ls : List Line)
    (hid : (blocks.map Blk.id).Nodup) (ha : Apart blocks) (hfn : ∀ b ∈ blocks, b.fn ≠ []) (hg : ∀ l ∈ ls, GoodLine l)
    (hc : ∀ p, Line.point p ∈ ls → p.count < 4294967296) :
    ∃ m, parse order blocks (fileText ls) = .ok m ∧
      (∀ i, m.has i = true → ∃ b ∈ blocks, b.id = i) ∧
      (∀ b ∈ blocks, m.has b.id = true ↔ ∃ f, SameName f b.fn ∧ Passed ls f b.ln) ∧
      ∀ b ∈ blocks, ∀ c, m.find b.id = some c → ∃ p f, .point p ∈ ls ∧ IsLine p ∧ At p f b.ln ∧ SameName f b.fn ∧ p.count = c := by
  obtain ⟨ts, h1, h2⟩ := allLines_file ls hg fun p hp => Nat.lt_trans (hc p hp) (by decide)
  have hnl : ∀ l ∈ ls, '\n' ∉ lineText l := by
    intro l hl
    cases l with
    | other s => exact (hg _ hl).1
    | point p => exact point_text (hg _ hl)
  have hinj : ∀ a ∈ blocks, ∀ b ∈ blocks, a.id = b.id → a = b := by
    intro a h1 b h2 e
    exact inj_of_nodup hid h1 h2 e
  refine ⟨revMap (collect blocks []) (order ts) [], ?_, ?_, ?_, ?_⟩
  · unfold parse
    rw [getLines_file ls hnl, h1, Res.ok_bind]
  · intro i hi
    obtain ⟨c, hc'⟩ := Option.isSome_iff_exists.1 hi
    rcases find_revMap _ _ _ _ _ hc' with h | ⟨t, _, _, h3, _⟩
    · cases h
    · rcases find_collect _ _ _ _ h3 with h | ⟨b, hb, _, _, h4⟩
      · cases h
      · exact ⟨b, hb, h4⟩
  · intro b hb
    constructor
    · intro h
      obtain ⟨c, hc'⟩ := Option.isSome_iff_exists.1 h
      rcases find_revMap _ _ _ _ _ hc' with h | ⟨t, ht, h0, h3, _⟩
      · cases h
      · rcases find_collect _ _ _ _ h3 with h | ⟨b', hb', _, h5, h4⟩
        · cases h
        · have := hinj b' hb' b hb h4
          subst this
          obtain ⟨p, hp, hl, hat, hcnt⟩ := (h2 t).1 ((ho ts t).1 ht)
          simp only [Prod.mk.injEq] at h5
          refine ⟨t.fn, sameName_iff.2 h5.1, p, hp, hl, by rw [← h5.2]; exact hat, ?_⟩
          rw [hcnt] at h0
          omega
    · rintro ⟨f, hs, p, hp, hl, hat, hpos⟩
      apply revMap_has
      right
      refine ⟨⟨f, b.ln, p.count % 4294967296⟩, (ho ts _).2 ((h2 _).2 ⟨p, hp, hl, hat, rfl⟩), ?_, ?_⟩
      · show p.count % 4294967296 ≠ 0
        rw [Nat.mod_eq_of_lt (hc p hp)]
        omega
      · show Map.find _ (baseName f, b.ln) = _
        rw [sameName_iff.1 hs]
        exact collect_block ha hb (hfn b hb)
  · intro b hb c hc'
    rcases find_revMap _ _ _ _ _ hc' with h | ⟨t, ht, h0, h3, h6⟩
    · cases h
    · rcases find_collect _ _ _ _ h3 with h | ⟨b', hb', _, h5, h4⟩
      · cases h
      · have := hinj b' hb' b hb h4
        subst this
        obtain ⟨p, hp, hl, hat, hcnt⟩ := (h2 t).1 ((ho ts t).1 ht)
        simp only [Prod.mk.injEq] at h5
        refine ⟨p, t.fn, hp, hl, by rw [← h5.2]; exact hat, sameName_iff.2 h5.1, ?_⟩
        rw [← h6, hcnt, Nat.mod_eq_of_lt (hc p hp)]

/-- With the files written as in the design, if no two different files among them have the same name: exactly the
passed blocks. -/
theorem coverage_exact_partial (order : List Tup → List Tup) (ho : IsOrder order) (blocks : List Blk) (ls : List Line)
    (hid : (blocks.map Blk.id).Nodup) (hd : (blocks.map fun b => (b.fn, b.ln)).Nodup) (hfn : ∀ b ∈ blocks, b.fn ≠ [])
    (hg : ∀ l ∈ ls, GoodLine l) (hc : ∀ p, Line.point p ∈ ls → p.count < 4294967296)
    (hb : ∀ a ∈ blocks, ∀ b ∈ blocks, SameName a.fn b.fn → a.fn = b.fn)
    (hp : ∀ p f n, Line.point p ∈ ls → At p f n → ∀ b ∈ blocks, SameName f b.fn → f = b.fn) :
    ∃ m, parse order blocks (fileText ls) = .ok m ∧ ∀ b ∈ blocks, m.has b.id = true ↔ Passed ls b.fn b.ln := by
  obtain ⟨m, h1, _, h2, _⟩ := coverage_partial order ho blocks ls hid (by
    intro a ha b hb' hs he
    exact inj_of_nodup hd ha hb' (by rw [hb a ha b hb' hs, he])) hfn hg hc
  refine ⟨m, h1, ?_⟩
  intro b hb'
  rw [h2 b hb']
  constructor
  · rintro ⟨f, hs, p, hpm, hl, hat, hpos⟩
    have := hp p f b.ln hpm hat b hb' hs
    subst this
    exact ⟨p, hpm, hl, hat, hpos⟩
  · intro h
    exact ⟨b.fn, ⟨baseName b.fn, base_split _, base_split _⟩, h⟩

/-! ## Files that are cut off -/

theorem scan_rest : ∀ (s : Str) (q : Q) (key buf : Str) (data d : Map Str Str) (r : Str),
    scan s q key buf data = .ok (d, some r) → ∃ u, s = u ++ '\'' :: r
  | [], _, _, _, _, _, _, h => by simp [scan] at h
  | c :: s, .none, key, buf, data, d, r, h => by
      rw [scan] at h
      by_cases e : c = '\x01'
      · rw [if_pos e] at h
        obtain ⟨u, hu⟩ := scan_rest s _ _ _ _ _ _ h
        exact ⟨c :: u, by rw [hu]; rfl⟩
      · rw [if_neg e] at h
        obtain ⟨u, hu⟩ := scan_rest s _ _ _ _ _ _ h
        exact ⟨c :: u, by rw [hu]; rfl⟩
  | c :: s, .key, key, buf, data, d, r, h => by
      rw [scan] at h
      by_cases e : c = '\x02'
      · rw [if_pos e] at h
        obtain ⟨u, hu⟩ := scan_rest s _ _ _ _ _ _ h
        exact ⟨c :: u, by rw [hu]; rfl⟩
      · rw [if_neg e] at h
        obtain ⟨u, hu⟩ := scan_rest s _ _ _ _ _ _ h
        exact ⟨c :: u, by rw [hu]; rfl⟩
  | c :: s, .val, key, buf, data, d, r, h => by
      rw [scan] at h
      by_cases e : c = '\'' ∨ c = '\x01'
      · rw [if_pos e] at h
        by_cases ek : key = []
        · rw [if_pos ek] at h; cases h
        · rw [if_neg ek] at h
          by_cases e1 : c = '\x01'
          · rw [if_pos e1] at h
            obtain ⟨u, hu⟩ := scan_rest s _ _ _ _ _ _ h
            exact ⟨c :: u, by rw [hu]; rfl⟩
          · rw [if_neg e1] at h
            simp only [Res.ok.injEq, Prod.mk.injEq, Option.some.injEq] at h
            rcases e with e | e
            · exact ⟨[], by rw [e, h.2]; rfl⟩
            · exact absurd e e1
      · rw [if_neg e] at h
        obtain ⟨u, hu⟩ := scan_rest s _ _ _ _ _ _ h
        exact ⟨c :: u, by rw [hu]; rfl⟩

/-- Without a count nothing is reported. -/
theorem finish_blank (data : Map Str Str) {o : Option Str} (h : ∀ r, o = some r → ∀ c ∈ r, c = ' ') (t : Tup) :
    finish data o ≠ .ok (some t) := by
  unfold finish
  intro e
  split at e
  · cases e
  · split at e
    · cases e
    · split at e
      · cases e
      · cases e
      · rename_i r _
        have hr := h r rfl
        have : trim r = [] := by
          have : r.dropWhile isSpace = [] := by
            clear e h
            induction r with
            | nil => rfl
            | cons c r ih =>
              rw [hr c (by simp), List.dropWhile_cons_of_pos (by decide)]
              cases r with
              | nil => rfl
              | cons c' r' => exact ih (by simp) (fun x hx => hr x (by simp [hx]))
          unfold trim
          rw [this]
          rfl
        rw [this] at e
        have h0 : toU32 9223372036854775808 [] = .throw .invalidArg := rfl
        rw [h0, Res.throw_bind] at e
        cases e

/-- The text of a point up to the count. -/
def headText (p : Point) : Str :=
  ['C', ' ', '\''] ++ p.fields.flatMap (fun kv => '\x01' :: kv.1 ++ '\x02' :: kv.2) ++ ['\'', ' ']

/-- A point that was cut off before its count is not taken for a passed point. -/
theorem cut_point {p : Point} (hp : GoodPoint p) {a b : Str} (h : headText p = a ++ b) (t : Tup) :
    oneLine a ≠ .ok (some t) := by
  unfold oneLine
  intro e
  split at e
  · cases e
  have hq : '\'' ∉ p.fields.flatMap (fun kv => '\x01' :: kv.1 ++ '\x02' :: kv.2) := by
    intro hm
    simp only [List.mem_flatMap, List.cons_append, List.mem_cons, List.mem_append] at hm
    obtain ⟨kv, hkv, hm | hm | hm | hm⟩ := hm
    · exact absurd hm (by decide)
    · exact hp.quote kv hkv hm
    · exact absurd hm (by decide)
    · exact (hp.val kv hkv).2.1 hm
  generalize hF : p.fields.flatMap (fun kv => '\x01' :: kv.1 ++ '\x02' :: kv.2) = F at hq
  cases hs : scan (a.drop 2) .none [] [] [] with
  | throw x => rw [hs] at e; cases e
  | ub => rw [hs] at e; cases e
  | ok d =>
    rw [hs, Res.ok_bind] at e
    refine finish_blank d.1 ?_ t e
    intro r hr
    obtain ⟨d1, d2⟩ := d
    simp only at hr
    subst hr
    -- what stands in front of the text that is read
    match a, h, hs with
    | [], _, hs => simp [scan] at hs
    | [_], _, hs => simp [scan] at hs
    | [_, _], _, hs => simp [scan] at hs
    | c0 :: c1 :: c2 :: a, h, hs =>
      unfold headText at h
      rw [hF] at h
      simp only [List.cons_append, List.nil_append, List.append_assoc, List.cons.injEq] at h
      obtain ⟨_, _, rfl, h⟩ := h
      simp only [List.drop_succ_cons, List.drop_zero] at hs
      rw [scan, if_neg (by decide)] at hs
      obtain ⟨u, hu⟩ := scan_rest _ _ _ _ _ _ _ hs
      rw [hu] at h
      simp only [List.append_assoc, List.cons_append] at h
      rcases List.append_eq_append_iff.1 h with ⟨w, h1, h2⟩ | ⟨w, h1, h2⟩
      · cases w with
        | nil =>
          simp only [List.nil_append, List.cons.injEq, true_and] at h2
          intro c hc
          have : c ∈ [' '] := by rw [h2]; simp [hc]
          simpa using this
        | cons c w =>
          simp only [List.cons_append, List.cons.injEq] at h2
          cases w with
          | nil => simp at h2
          | cons c' w =>
            simp only [List.cons_append, List.cons.injEq] at h2
            have := congrArg List.length h2.2.2
            simp at this
      · cases w with
        | nil =>
          simp only [List.nil_append, List.cons.injEq, true_and] at h2
          intro c hc
          have : c ∈ [' '] := by rw [← h2]; simp [hc]
          simpa using this
        | cons c w =>
          simp only [List.cons_append, List.cons.injEq] at h2
          exact absurd (by rw [h1, ← h2.1]; simp) hq

theorem getLines_tail {t : Str} (h : '\n' ∉ t) (hne : t ≠ []) : getLines t = [t] := by
  induction t with
  | nil => exact absurd rfl hne
  | cons c t ih =>
    rw [getLines, if_neg (fun e => h (by simp [e]))]
    cases t with
    | nil => rfl
    | cons c' t => rw [ih (fun e => h (by simp [e])) (by simp)]

theorem getLines_app (ls : List Line) (h : ∀ l ∈ ls, '\n' ∉ lineText l) (t : Str) :
    getLines (fileText ls ++ t) = ls.map lineText ++ getLines t := by
  induction ls with
  | nil => rfl
  | cons l ls ih =>
    have : fileText (l :: ls) ++ t = lineText l ++ '\n' :: (fileText ls ++ t) := by simp [fileText]
    rw [this, getLines_cons (h l (by simp)), ih fun x hx => h x (by simp [hx])]
    rfl

theorem allLines_snoc (ls : List Str) (l : Str) (h : ∀ t, oneLine l ≠ .ok (some t)) :
    (∃ e, allLines (ls ++ [l]) = .throw e) ∨ allLines (ls ++ [l]) = .ub ∨ allLines (ls ++ [l]) = allLines ls := by
  induction ls with
  | nil =>
    simp only [List.nil_append, allLines]
    cases ho : oneLine l with
    | throw e => exact Or.inl ⟨e, rfl⟩
    | ub => exact Or.inr (Or.inl rfl)
    | ok o =>
      cases o with
      | none => exact Or.inr (Or.inr rfl)
      | some t => exact absurd ho (h t)
  | cons x ls ih =>
    simp only [List.cons_append, allLines]
    cases oneLine x with
    | throw e => exact Or.inl ⟨e, rfl⟩
    | ub => exact Or.inr (Or.inl rfl)
    | ok o =>
      simp only [Res.ok_bind]
      rcases ih with ⟨e, he⟩ | he | he
      · exact Or.inl ⟨e, by rw [he, Res.throw_bind]⟩
      · exact Or.inr (Or.inl (by rw [he, Res.ub_bind]))
      · exact Or.inr (Or.inr (by rw [he]))

/-- Nothing in the reading of the numbers is undefined. -/
theorem oneLine_defined (l : Str) : oneLine l ≠ .ub := by
  have hd : ∀ s, digits s ≠ .ub := by intro s; unfold digits; split <;> simp
  have hn : ∀ s, number s ≠ .ub := by
    intro s
    unfold number
    split
    · rename_i r _
      cases hx : digits r with
      | ok n => simp
      | throw e => simp
      | ub => exact absurd hx (hd r)
    · exact hd _
    · exact hd _
  have hu : ∀ k s, toU32 k s ≠ .ub := by
    intro k s
    unfold toU32
    cases hx : number s with
    | ok n => simp only [Res.ok_bind]; split <;> simp
    | throw e => simp
    | ub => exact absurd hx (hn s)
  have hs : ∀ (s : Str) (q : Q) (key buf : Str) (data : Map Str Str), scan s q key buf data ≠ .ub := by
    intro s
    induction s with
    | nil => intro q key buf data; simp [scan]
    | cons c s ih =>
      intro q key buf data
      cases q with
      | none => rw [scan]; split <;> exact ih _ _ _ _
      | key => rw [scan]; split <;> exact ih _ _ _ _
      | val =>
        rw [scan]
        split
        · split
          · simp
          · split
            · exact ih _ _ _ _
            · simp
        · exact ih _ _ _ _
  unfold oneLine
  split
  · simp
  cases hx : scan (l.drop 2) .none [] [] [] with
  | throw e => simp
  | ub => exact absurd hx (hs _ _ _ _ _)
  | ok p =>
    simp only [Res.ok_bind]
    unfold finish
    split
    · simp
    · split
      · simp
      · split
        · simp
        · simp
        · rename_i r _ _
          cases hc : toU32 9223372036854775808 (trim r) with
          | throw e => simp
          | ub => exact absurd hc (hu _ _)
          | ok n =>
            simp only [Res.ok_bind]
            split
            · rename_i f x _ _
              cases hl : toU32 2147483648 x with
              | throw e => simp
              | ub => exact absurd hl (hu _ _)
              | ok n => simp
            · simp

theorem allLines_defined (ls : List Str) : allLines ls ≠ .ub := by
  induction ls with
  | nil => simp [allLines]
  | cons l ls ih =>
    simp only [allLines]
    cases hx : oneLine l with
    | throw e => simp
    | ub => exact absurd hx (oneLine_defined l)
    | ok o =>
      simp only [Res.ok_bind]
      cases hy : allLines ls with
      | throw e => simp
      | ub => exact absurd hy ih
      | ok ts => simp

/-- C108, every text: reading has a result or ends with an exception. -/
theorem parse_defined (order : List Tup → List Tup) (blocks : List Blk) (text : Str) : parse order blocks text ≠ .ub := by
  unfold parse
  cases h : allLines (getLines text) with
  | throw e => simp
  | ub => exact absurd h (allLines_defined _)
  | ok ts => simp

/-- C108, for a simulation that is stopped while it writes: when the last point of the file is cut off anywhere before
its count, the file is refused or read as if that point was not there. -/
theorem cut_file (order : List Tup → List Tup) (blocks : List Blk) (ls : List Line) (hg : ∀ l ∈ ls, GoodLine l)
    {p : Point} (hp : GoodPoint p) {a b : Str} (h : headText p = a ++ b) :
    (∃ e, parse order blocks (fileText ls ++ a) = .throw e) ∨
      parse order blocks (fileText ls ++ a) = parse order blocks (fileText ls) := by
  have hnl : ∀ l ∈ ls, '\n' ∉ lineText l := by
    intro l hl
    cases l with
    | other s => exact (hg _ hl).1
    | point p => exact point_text (hg _ hl)
  have ha : '\n' ∉ a := by
    intro hm
    apply point_text hp
    have : pointText p = headText p ++ printNat 10 p.count := rfl
    rw [this, h]
    simp [hm]
  by_cases hne : a = []
  · subst hne; right; rw [List.append_nil]
  unfold parse
  rw [getLines_app ls hnl, getLines_tail ha hne, getLines_file ls hnl]
  rcases allLines_snoc (ls.map lineText) a (cut_point hp h) with ⟨e, he⟩ | he | he
  · exact Or.inl ⟨e, by rw [he, Res.throw_bind]⟩
  · exact absurd he (allLines_defined _)
  · exact Or.inr (by rw [he])

theorem scan_none : ∀ (s key buf : Str) (data : Map Str Str), '\x01' ∉ s → scan s .none key buf data = .ok (data, none)
  | [], _, _, _, _ => rfl
  | c :: s, key, buf, data, h => by
      rw [scan, if_neg (fun e => h (by simp [e])), scan_none s key buf data (fun e => h (by simp [e]))]

/-- C108: a point without a type is refused. -/
theorem no_page_refused (p : Point) (hk : ∀ kv ∈ p.fields, kv.1 ≠ [] ∧ '\x02' ∉ kv.1)
    (hv : ∀ kv ∈ p.fields, '\x01' ∉ kv.2 ∧ '\'' ∉ kv.2) (hp : ∀ v, (['p', 'a', 'g', 'e'], v) ∉ p.fields) :
    oneLine (pointText p) = .throw .user := by
  have hhead : ¬ (pointText p).head? ≠ some 'C' := by simp [pointText]
  unfold oneLine
  rw [if_neg hhead]
  cases hfs : p.fields with
  | nil =>
    have : scan ((pointText p).drop 2) .none [] [] [] = .ok ([], none) := by
      apply scan_none
      intro hm
      simp only [pointText, hfs, List.flatMap_nil, List.cons_append, List.nil_append, List.drop_succ_cons, List.drop_zero,
        List.mem_cons] at hm
      rcases hm with hm | hm | hm | hm
      · exact absurd hm (by decide)
      · exact absurd hm (by decide)
      · exact absurd hm (by decide)
      · exact Import.dec_ne hm (by decide) rfl
    rw [this, Res.ok_bind]
    rfl
  | cons kv fs =>
    obtain ⟨k, x⟩ := kv
    have := scan_fields (' ' :: printNat 10 p.count) fs k x [] (by
      intro kv' h'
      rw [← hfs] at h'
      exact ⟨(hk kv' h').1, (hk kv' h').2, (hv kv' h').1, (hv kv' h').2⟩)
    have hscan : scan ((pointText p).drop 2) .none [] [] [] = .ok (gather ((k, x) :: fs) [], some (' ' :: printNat 10 p.count)) := by
      rw [← this]
      simp only [pointText, hfs, List.flatMap_cons, List.cons_append, List.nil_append, List.append_assoc, List.drop_succ_cons,
        List.drop_zero]
      rw [scan, if_neg (by decide), scan, if_pos rfl]
    rw [hscan, Res.ok_bind]
    unfold finish
    have : Map.find (gather ((k, x) :: fs) []) kPage = none := by
      rw [find_gather]
      simp only [Map.find, Option.none_or]
      rw [← Map.find, Map.find_none_iff, Map.mem_keys]
      rintro ⟨v, hv'⟩
      exact hp v (by rw [hfs]; exact hv')
    rw [this]

/-! ## Witnesses -/

/-- A point of line coverage. -/
def pt (f : Str) (n c : Nat) : Point :=
  ⟨[(['f'], f), (['l'], printNat 10 n), (['p', 'a', 'g', 'e'], ['v', '_', 'l', 'i', 'n', 'e', '/', 'm']), (['o'], ['i', 'f'])], c⟩

theorem pt_good {f : Str} (h : '\x01' ∉ f ∧ '\'' ∉ f ∧ '\n' ∉ f) {n c : Nat} (hn : n < 2147483648) : GoodPoint (pt f n c) := by
  have hnum : ∀ x ∈ printNat 10 n, x ≠ '\x01' ∧ x ≠ '\'' ∧ x ≠ '\n' := fun x hx =>
    ⟨Import.dec_ne hx (by decide), Import.dec_ne hx (by decide), Import.dec_ne hx (by decide)⟩
  refine ⟨?_, ?_, ?_, ?_, ⟨['v', '_', 'l', 'i', 'n', 'e', '/', 'm'], by simp [pt]⟩, ⟨f, n, ⟨by simp [pt], by simp [pt]⟩, hn⟩⟩
  · show [['f'], ['l'], ['p', 'a', 'g', 'e'], ['o']].Nodup
    decide
  · intro kv hkv
    simp only [pt, List.mem_cons, List.not_mem_nil, or_false] at hkv
    rcases hkv with rfl | rfl | rfl | rfl <;> simp
  · intro kv hkv
    simp only [pt, List.mem_cons, List.not_mem_nil, or_false] at hkv
    rcases hkv with rfl | rfl | rfl | rfl <;> simp
  · intro kv hkv
    simp only [pt, List.mem_cons, List.not_mem_nil, or_false] at hkv
    rcases hkv with rfl | rfl | rfl | rfl
    · exact h
    · exact ⟨fun hx => (hnum _ hx).1 rfl, fun hx => (hnum _ hx).2.1 rfl, fun hx => (hnum _ hx).2.2 rfl⟩
    · simp
    · simp

theorem pt_passed {ls : List Line} {f : Str} {n c : Nat} (h : .point (pt f n c) ∈ ls) (hc : 0 < c) : Passed ls f n :=
  ⟨pt f n c, h, ⟨['/', 'm'], by simp [pt]⟩, ⟨by simp [pt], by simp [pt]⟩, hc⟩

def mSv : Str := ['m', '.', 's', 'v']

/-- A point passed 2^32 times is reported as not passed. -/
theorem count_lost : parse id [⟨0, mSv, 3⟩] (fileText [.point (pt mSv 3 4294967296)]) = .ok [] ∧
    Passed [.point (pt mSv 3 4294967296)] mSv 3 :=
  ⟨by decide +kernel, pt_passed (c := 4294967296) (by simp) (by decide)⟩

/-- Of two files with the same name in different directories, the points of the second one count for the first. -/
theorem same_name :
    parse id [⟨0, 'a' :: '/' :: mSv, 3⟩, ⟨1, 'b' :: '/' :: mSv, 3⟩] (fileText [.point (pt ('b' :: '/' :: mSv) 3 5)]) = .ok [(0, 5)] ∧
    Passed [.point (pt ('b' :: '/' :: mSv) 3 5)] ('b' :: '/' :: mSv) 3 :=
  ⟨by decide +kernel, pt_passed (c := 5) (by simp) (by decide)⟩

theorem not_CoverageClaim : ¬ CoverageClaim := by
  intro h
  obtain ⟨m, h1, h2⟩ := h id [⟨0, mSv, 3⟩] [.point (pt mSv 3 4294967296)] (by intro l x; rfl) (by decide) (by decide)
    (by decide) (by
      intro l hl
      rw [List.mem_singleton] at hl
      subst hl
      exact pt_good (by decide) (by decide)) (by
      intro p hp
      rw [List.mem_singleton] at hp
      injection hp with hp
      subst hp
      show (4294967296 : Nat) < 9223372036854775808
      decide)
  rw [count_lost.1] at h1
  cases h1
  have := (h2 ⟨0, mSv, 3⟩ (by simp)).2 count_lost.2
  cases this

/-- The hypotheses of `coverage_partial`: a header, a point that was passed and one that was not, two blocks. -/
def exLs : List Line := [.other ['#', ' ', 'C'], .other [], .point (pt mSv 3 7), .point (pt mSv 9 0)]
def exBs : List Blk := [⟨0, 'a' :: '/' :: mSv, 3⟩, ⟨1, 'a' :: '/' :: mSv, 9⟩]

example : (∀ l ∈ exLs, GoodLine l) ∧ (exBs.map Blk.id).Nodup ∧ Apart exBs ∧
    (∀ p, Line.point p ∈ exLs → p.count < 4294967296) := by
  refine ⟨?_, by decide, ?_, ?_⟩
  · intro l hl
    simp only [exLs, List.mem_cons, List.not_mem_nil, or_false] at hl
    rcases hl with rfl | rfl | rfl | rfl
    · exact ⟨by decide, by decide⟩
    · exact ⟨by decide, by decide⟩
    · exact pt_good (by decide) (by decide)
    · exact pt_good (by decide) (by decide)
  · intro a ha b hb _ he
    simp only [exBs, List.mem_cons, List.not_mem_nil, or_false] at ha hb
    rcases ha with rfl | rfl <;> rcases hb with rfl | rfl <;> simp_all
  · intro p hp
    simp only [exLs, List.mem_cons, List.not_mem_nil, or_false, reduceCtorEq, false_or, Line.point.injEq] at hp
    rcases hp with rfl | rfl <;> decide

example : parse id exBs (fileText exLs) = .ok [(0, 7)] := by decide +kernel

/-- A count that is cut off is read as a smaller one: `cut_file` ends before the count. -/
example : parse id exBs (fileText [] ++ (pointText (pt mSv 3 71)).dropLast) = .ok [(0, 7)] := by decide +kernel

/-- Cut behind the quote. -/
example : parse id exBs (fileText exLs ++ (headText (pt mSv 3 71)).dropLast) = .throw .user := by decide +kernel

end Kratos.Cov
