import Verif.Misc.Xml
import Verif.Util.Map
import Verif.Text.Digits

/-!
# C103: the coverage report

Model of `FaultAnalyzer::output_coverage_xml` (src/fault.cc:305-507) on top of the XML writer.

Simplifications.  A statement is its identity, the first entry of its debug information, the name
of the generator it belongs to and the identities of its ancestors.  Counters are natural numbers.
Rates and the time stamp are arbitrary texts: neither `double` nor the clock is modelled.
-/

namespace Kratos.Report
open Kratos.Xml
open Kratos.Text (printNat readNat readNat_printNat)

/-! ## Model -/

/-- What the report uses of a statement. -/
structure Node where
  id : Nat
  /-- `fn_name_ln.front()`, if there is one -/
  dbg : Option (Txt × Nat)
  /-- `generator_parent()->name` -/
  gen : Txt
  /-- the statement stands directly in a scope block (src/fault.cc:308-316) -/
  inScope : Bool
  /-- the ancestors, the nearest first -/
  parents : List Nat
  deriving DecidableEq

/-- What `CoverageStatVisitor` visits (src/fault.cc:305-333): the assignments and the scope blocks,
each in the order the respective set is iterated in. -/
structure Design where
  assigns : List Node
  blocks : List Node

/-- `stmts()`, src/fault.cc:307-320. -/
def totalLines (D : Design) : List Node := D.assigns.filter fun n => n.inScope && n.dbg.isSome

/-- `branches()`, src/fault.cc:322-324. -/
def totalBranches (D : Design) : List Node := D.blocks.filter fun n => n.dbg.isSome

/-- `has_parent`, src/fault.cc:335-342. -/
def hasParent (branches : List Node) (n : Node) : Option Nat :=
  n.parents.find? fun p => branches.any fun b => b.id == p

/-- One step of the counting, src/fault.cc:401-405. -/
def bump (m : Map Nat Nat) (k : Nat) : Map Nat Nat := m.put k ((m.find k).getD 0 + 1)

/-- `branch_cover_count`, src/fault.cc:398-406; a coverage set is a list without repetitions. -/
def branchCount (maps : Map Nat (List Nat)) : Map Nat Nat := (maps.flatMap (·.2)).foldl bump []

/-- `line_cover_count`, src/fault.cc:409-416. -/
def lineCount (D : Design) (maps : Map Nat (List Nat)) : Map Nat Nat :=
  (totalLines D).foldl (fun m n =>
    match hasParent (totalBranches D) n with
    | none => m
    | some p =>
      match (branchCount maps).find p with
      | none => m
      | some c => m.emplace n.id c) []

/-- `std::map::operator[] =`: replace the entry, or put it where it belongs. -/
def sput {K V : Type} [DecidableEq K] (lt : K → K → Bool) (k : K) (v : V) :
    List (K × V) → List (K × V)
  | [] => [(k, v)]
  | e :: r => if k = e.1 then (k, v) :: r
    else if lt k e.1 then (k, v) :: e :: r else e :: sput lt k v r

/-- `std::less` on strings. -/
def ltTxt : Txt → Txt → Bool
  | _, [] => false
  | [], _ :: _ => true
  | a :: s, b :: t => if a = b then ltTxt s t else decide (a.toNat < b.toNat)

def ltNat (a b : Nat) : Bool := decide (a < b)

/-- `coverage[fn][ln] = stmt`, src/fault.cc:423-431. -/
def putCov (m : Map Txt (Map Nat Node)) (n : Node) : Map Txt (Map Nat Node) :=
  match n.dbg with
  | none => m
  | some (fn, ln) => sput ltTxt fn (sput ltNat ln n ((Map.find m fn).getD [])) m

/-- `coverage`, src/fault.cc:422-431. -/
def coverage (D : Design) : Map Txt (Map Nat Node) :=
  (totalLines D ++ totalBranches D).foldl putCov []

/-- `std::mismatch` of two strings (src/fault.cc:354-355); it reads the second one past its end when
that is a proper prefix of the first. -/
def mismatch : Txt → Txt → Option Nat
  | [], _ => some 0
  | _ :: _, [] => none
  | a :: s, b :: t => if a = b then (mismatch s t).map (· + 1) else some 0

/-- The loop of `longestPath`, src/fault.cc:353-358. -/
def common (c : Txt) (max : Nat) : List Txt → Res Nat
  | [] => .ok max
  | d :: ds =>
    match mismatch c d with
    | none => .ub
    | some m => common c (if m < max then m else max) ds

/-- `std::string::rfind` of a character. -/
def rfind (c : Txt) (sep : Char) : Nat → Option Nat
  | 0 => if c[0]? = some sep then some 0 else none
  | p + 1 => if c[p + 1]? = some sep then some (p + 1) else rfind c sep p

/-- `longestPath`, src/fault.cc:346-361; `substr(0, npos)` is the whole string. -/
def longestPath : List Txt → Res Txt
  | [] => .ok []
  | c :: rest => (common c c.length rest).bind fun m =>
    .ok (match rfind c '/' m with
      | some p => c.take p
      | none => c)

/-- `std::string::find`. -/
def findTxt (root : Txt) : Txt → Option Nat
  | [] => if root.isPrefixOf [] then some 0 else none
  | c :: t => if root.isPrefixOf (c :: t) then some 0 else (findTxt root t).map (· + 1)

/-- `get_filename_after_root`, src/fault.cc:363-371.  When `find` fails, `npos` plus the size wraps around
to the size less one (the empty text is always found, so the sum is never `npos`).  The terminating
null character can be read, what follows cannot. -/
def afterRoot (root f : Txt) : Res Txt :=
  let pos := match findTxt root f with
    | some i => i + root.length
    | none => root.length - 1
  if pos > f.length then .ub else .ok ((f.drop pos).dropWhile (· == '/'))

/-- `classes[gen_name].emplace(ln, stmt)`, src/fault.cc:462-467. -/
def putClass (m : Map Txt (Map Nat Node)) (e : Nat × Node) : Map Txt (Map Nat Node) :=
  let cov := (Map.find m e.2.gen).getD []
  sput ltTxt e.2.gen (if Map.has cov e.1 then cov else sput ltNat e.1 e.2 cov) m

def classesOf (stmts : Map Nat Node) : Map Txt (Map Nat Node) := stmts.foldl putClass []

/-- The number shown for a line, src/fault.cc:491-496. -/
def hitsOf (D : Design) (maps : Map Nat (List Nat)) (n : Node) : Nat :=
  match (lineCount D maps).find n.id with
  | some c => c
  | none => ((branchCount maps).find n.id).getD 0

/-- A class of the report: its name, its file and its lines. -/
structure Cls where
  name : Txt
  file : Txt
  lines : List (Nat × Nat)

/-- The loops over files and classes, src/fault.cc:459-505. -/
def classList (D : Design) (maps : Map Nat (List Nat)) (root : Txt) :
    Map Txt (Map Nat Node) → Res (List Cls)
  | [] => .ok []
  | (fn, stmts) :: r => (afterRoot root fn).bind fun f => (classList D maps root r).bind fun cs =>
    .ok ((classesOf stmts).map (fun c => ⟨c.1, f, c.2.map fun l => (l.1, hitsOf D maps l.2)⟩) ++ cs)

/-! The names in the report. -/
def tCoverage : Txt := ['c', 'o', 'v', 'e', 'r', 'a', 'g', 'e']
def tSources : Txt := ['s', 'o', 'u', 'r', 'c', 'e', 's']
def tSource : Txt := ['s', 'o', 'u', 'r', 'c', 'e']
def tPackages : Txt := ['p', 'a', 'c', 'k', 'a', 'g', 'e', 's']
def tPackage : Txt := ['p', 'a', 'c', 'k', 'a', 'g', 'e']
def tClasses : Txt := ['c', 'l', 'a', 's', 's', 'e', 's']
def tClass : Txt := ['c', 'l', 'a', 's', 's']
def tMethods : Txt := ['m', 'e', 't', 'h', 'o', 'd', 's']
def tLines : Txt := ['l', 'i', 'n', 'e', 's']
def tLine : Txt := ['l', 'i', 'n', 'e']
def aLineRate : Txt := ['l', 'i', 'n', 'e', '-', 'r', 'a', 't', 'e']
def aBranchRate : Txt := ['b', 'r', 'a', 'n', 'c', 'h', '-', 'r', 'a', 't', 'e']
def aLinesCovered : Txt := ['l', 'i', 'n', 'e', 's', '-', 'c', 'o', 'v', 'e', 'r', 'e', 'd']
def aLinesValid : Txt := ['l', 'i', 'n', 'e', 's', '-', 'v', 'a', 'l', 'i', 'd']
def aBranchesCovered : Txt := ['b', 'r', 'a', 'n', 'c', 'h', 'e', 's', '-', 'c', 'o', 'v', 'e', 'r', 'e', 'd']
def aBranchesValid : Txt := ['b', 'r', 'a', 'n', 'c', 'h', 'e', 's', '-', 'v', 'a', 'l', 'i', 'd']
def aComplexity : Txt := ['c', 'o', 'm', 'p', 'l', 'e', 'x', 'i', 't', 'y']
def aTimestamp : Txt := ['t', 'i', 'm', 'e', 's', 't', 'a', 'm', 'p']
def aVersion : Txt := ['v', 'e', 'r', 's', 'i', 'o', 'n']
def aName : Txt := ['n', 'a', 'm', 'e']
def aFilename : Txt := ['f', 'i', 'l', 'e', 'n', 'a', 'm', 'e']
def aNumber : Txt := ['n', 'u', 'm', 'b', 'e', 'r']
def aHits : Txt := ['h', 'i', 't', 's']
def aBranch : Txt := ['b', 'r', 'a', 'n', 'c', 'h']
def vFalse : Txt := ['f', 'a', 'l', 's', 'e']
def vVersion : Txt := ['k', 'r', 'a', 't', 'o', 's', ' ', '0']
def doctype : Txt := '<' :: '!' :: (['D', 'O', 'C', 'T', 'Y', 'P', 'E', ' ', 'c', 'o', 'v', 'e', 'r', 'a', 'g', 'e', ' ', 'S', 'Y', 'S', 'T', 'E', 'M', ' '] ++ ['\'', 'h', 't', 't', 'p', ':', '/', '/', 'c', 'o', 'b', 'e', 'r', 't', 'u', 'r', 'a', '.', 's', 'o', 'u', 'r', 'c', 'e', 'f', 'o', 'r', 'g', 'e', '.', 'n', 'e', 't', '/', 'x', 'm', 'l', '/', 'c', 'o', 'v', 'e', 'r', 'a', 'g', 'e', '-', '0', '4', '.', 'd', 't', 'd', '\''] ++ ['>'])

/-- A line, src/fault.cc:486-500. -/
def lineCalls (l : Nat × Nat) : List Call :=
  [.openElt tLine, .attr aNumber (printNat 10 l.1), .attr aHits (printNat 10 l.2),
    .attr aBranch vFalse, .closeElt]

/-- A class, src/fault.cc:472-503; `one` is the text of 1.0. -/
def classCalls (one : Txt) (c : Cls) : List Call :=
  [.openElt tClass, .attr aName c.name, .attr aFilename c.file, .attr aLineRate one,
    .attr aBranchRate one, .attr aComplexity one, .openElt tMethods, .closeElt, .openElt tLines] ++
    c.lines.flatMap lineCalls ++ [.closeElt, .closeElt]

/-- The numbers of the report, src/fault.cc:391-396, 418-419. -/
structure Totals where
  linesCovered : Nat
  linesValid : Nat
  branchesCovered : Nat
  branchesValid : Nat
  deriving DecidableEq

def totals (D : Design) (maps : Map Nat (List Nat)) : Totals :=
  ⟨(lineCount D maps).length, (totalLines D).length, (branchCount maps).length,
    (totalBranches D).length⟩

/-- The texts of the numbers that are not modelled. -/
structure Texts where
  rate : Nat → Nat → Txt
  zero : Txt
  one : Txt
  time : Txt

/-- src/fault.cc:441-457, up to the loop. -/
def headCalls (X : Texts) (T : Totals) (root : Txt) : List Call :=
  [.openElt tCoverage,
    .attr aLineRate (if T.linesValid > 0 then X.rate T.linesCovered T.linesValid else X.zero),
    .attr aBranchRate (if T.branchesValid > 0 then X.rate T.branchesCovered T.branchesValid else X.zero),
    .attr aLinesCovered (printNat 10 T.linesCovered), .attr aLinesValid (printNat 10 T.linesValid),
    .attr aBranchesCovered (printNat 10 T.branchesCovered),
    .attr aBranchesValid (printNat 10 T.branchesValid),
    .attr aComplexity X.zero, .attr aTimestamp X.time, .attr aVersion vVersion,
    .openElt tSources, .openElt tSource, .content root, .closeElt, .closeElt,
    .openElt tPackages, .openElt tPackage, .openElt tClasses,
    .attr aLineRate X.one, .attr aBranchRate X.one, .attr aComplexity X.one]

/-- `output_coverage_xml`, src/fault.cc:378-507: what the stream has received at the end. -/
def report (X : Texts) (D : Design) (maps : Map Nat (List Nat)) : Res Txt :=
  (longestPath ((coverage D).map (·.1))).bind fun root =>
  (classList D maps root (coverage D)).bind fun cs =>
  (calls (start doctype) (headCalls X (totals D maps) root ++ cs.flatMap (classCalls X.one) ++
    [.closeAll])).bind fun w => .ok w.out

/-! ## Specification -/

/-- A line as the reader of the report sees it. -/
structure Row where
  name : Option Txt
  file : Option Txt
  number : Option Nat
  hits : Option Nat
  deriving DecidableEq

/-- The lines of a report, each with the name and the file of the class it stands in. -/
def rows : Option Txt → Option Txt → List Ev → List Row
  | _, _, [] => []
  | n, f, .start tag attrs :: r =>
    if tag = ['c', 'l', 'a', 's', 's'] then
      rows (attrs.lookup ['n', 'a', 'm', 'e'])
        (attrs.lookup ['f', 'i', 'l', 'e', 'n', 'a', 'm', 'e']) r
    else if tag = ['l', 'i', 'n', 'e'] then
      ⟨n, f, (attrs.lookup ['n', 'u', 'm', 'b', 'e', 'r']).bind (readNat 10),
        (attrs.lookup ['h', 'i', 't', 's']).bind (readNat 10)⟩ :: rows n f r
    else rows n f r
  | n, f, _ :: r => rows n f r

/-- The directory the report names: the text inside `source`, empty if there is none. -/
def sourceOf : List Ev → Txt
  | .start ['s', 'o', 'u', 'r', 'c', 'e'] _ :: .text t :: _ => t
  | _ :: r => sourceOf r
  | [] => []

/-- The numbers on the outermost element. -/
def totalsOf (E : List Ev) : List (Option Nat) :=
  match E with
  | .start _ attrs :: _ => [LC, LV, BC, BV].map fun k => (attrs.lookup k).bind (readNat 10)
  | _ => []
where
  LC : Txt := ['l', 'i', 'n', 'e', 's', '-', 'c', 'o', 'v', 'e', 'r', 'e', 'd']
  LV : Txt := ['l', 'i', 'n', 'e', 's', '-', 'v', 'a', 'l', 'i', 'd']
  BC : Txt := ['b', 'r', 'a', 'n', 'c', 'h', 'e', 's', '-', 'c', 'o', 'v', 'e', 'r', 'e', 'd']
  BV : Txt := ['b', 'r', 'a', 'n', 'c', 'h', 'e', 's', '-', 'v', 'a', 'l', 'i', 'd']

/-- What the report is about: assignments directly inside a block of an `if` or the like, and these
blocks, with debug information. -/
def Reported (D : Design) (n : Node) : Prop :=
  n.dbg ≠ none ∧ (n ∈ D.assigns ∧ n.inScope = true ∨ n ∈ D.blocks)

/-- In how many runs a statement is executed: a block when it is entered, an assignment when the
block it stands in is. -/
def ranIn (runs : List (List Nat)) (D : Design) (n : Node) (k : Nat) : Prop :=
  (n ∈ D.blocks ∧ k = (runs.filter fun r => decide (n.id ∈ r)).length) ∨
  (n ∈ D.assigns ∧ ∃ b, n.parents.head? = some b ∧ k = (runs.filter fun r => decide (b ∈ r)).length)

/-- Every reported statement has its line, found under the file it stands in, with the number of runs
that executed it, and there are no other lines. -/
def LinesRight (D : Design) (runs : List (List Nat)) (E : List Ev) : Prop :=
  (∀ n fn ln, Reported D n → n.dbg = some (fn, ln) → ∃ f k, sourceOf E ++ '/' :: f = fn ∧
    ranIn runs D n k ∧ ⟨some n.gen, some f, some ln, some k⟩ ∈ rows none none E) ∧
  ∀ row ∈ rows none none E, ∃ n fn ln f k, Reported D n ∧ n.dbg = some (fn, ln) ∧
    sourceOf E ++ '/' :: f = fn ∧ ranIn runs D n k ∧ row = ⟨some n.gen, some f, some ln, some k⟩

/-- The numbers of statements and blocks, and how many of them were executed in some run. -/
def TotalsRight (D : Design) (runs : List (List Nat)) (E : List Ev) : Prop :=
  ∃ ls bs lc bc : List Node,
    (ls.Nodup ∧ ∀ n, n ∈ ls ↔ n ∈ D.assigns ∧ n.inScope = true ∧ n.dbg ≠ none) ∧
    (bs.Nodup ∧ ∀ n, n ∈ bs ↔ n ∈ D.blocks ∧ n.dbg ≠ none) ∧
    (lc.Nodup ∧ ∀ n, n ∈ lc ↔ n ∈ ls ∧ ∃ k, ranIn runs D n k ∧ 0 < k) ∧
    (bc.Nodup ∧ ∀ n, n ∈ bc ↔ n ∈ bs ∧ ∃ k, ranIn runs D n k ∧ 0 < k) ∧
    totalsOf E = [some lc.length, some ls.length, some bc.length, some bs.length]

/-- The full claim: a report is written and says for every statement in how many runs it was
executed. -/
def ReportClaim (X : Texts) (D : Design) (runs : List (List Nat)) (maps : Map Nat (List Nat)) : Prop :=
  ∃ out, report X D maps = .ok out ∧ LinesRight D runs (read false [] out) ∧
    TotalsRight D runs (read false [] out)

/-- Statements are told apart by their identity, and coverage sets are sets. -/
structure Proper (D : Design) (maps : Map Nat (List Nat)) : Prop where
  ids : ((D.assigns ++ D.blocks).map Node.id).Nodup
  sets : ∀ e ∈ maps, e.2.Nodup

/-- What the code needs in addition. -/
structure Fits (D : Design) (runs : List (List Nat)) (maps : Map Nat (List Nat)) : Prop where
  /-- the coverage of every run has been computed -/
  computed : (maps.map (·.2)).Perm runs
  /-- no two reported statements share a line -/
  apart : ∀ a b, Reported D a → Reported D b → a.dbg = b.dbg → a.id = b.id
  /-- the block around a reported assignment has debug information -/
  around : ∀ a ∈ D.assigns, a.inScope = true → a.dbg ≠ none →
    ∃ b ∈ D.blocks, b.dbg ≠ none ∧ a.parents.head? = some b.id
  /-- so has every block that was entered -/
  entered : ∀ r ∈ runs, ∀ i ∈ r, ∃ b ∈ D.blocks, b.dbg ≠ none ∧ b.id = i
  /-- file names are absolute and have no empty parts -/
  absolute : ∀ n fn ln, Reported D n → n.dbg = some (fn, ln) → ∃ t, fn = '/' :: t
  parts : ∀ n fn ln, Reported D n → n.dbg = some (fn, ln) → ∀ q r, fn ≠ q ++ '/' :: '/' :: r
  /-- no directory of one file is, letter for letter, the beginning of a longer name in another -/
  separate : ∀ a b fa fb la lb, Reported D a → Reported D b → a.dbg = some (fa, la) →
    b.dbg = some (fb, lb) → ∀ q r x s, fa = q ++ '/' :: r → fb = q ++ x :: s → x.toNat ≤ '/'.toNat

/-! ## Lemmas: ordered maps -/

structure StrictOrder {K : Type} (lt : K → K → Bool) : Prop where
  irr : ∀ a, lt a a = false
  trans : ∀ a b c, lt a b = true → lt b c = true → lt a c = true
  tri : ∀ a b, lt a b = true ∨ a = b ∨ lt b a = true

theorem char_eq {a b : Char} (h : a.toNat = b.toNat) : a = b := Char.ext (UInt32.toNat_inj.1 h)

theorem ltTxt_irr : ∀ a, ltTxt a a = false
  | [] => rfl
  | a :: s => by rw [ltTxt, if_pos rfl, ltTxt_irr s]

theorem ltTxt_trans : ∀ a b c, ltTxt a b = true → ltTxt b c = true → ltTxt a c = true
  | _, b, [], _, h => by cases b <;> cases h
  | a, [], _ :: _, h, _ => by cases a <;> cases h
  | [], _ :: _, _ :: _, _, _ => rfl
  | a :: s, b :: t, c :: u, h1, h2 => by
    rw [ltTxt] at h1 h2 ⊢
    by_cases hab : a = b
    · subst hab
      rw [if_pos rfl] at h1
      by_cases hac : a = c
      · rw [if_pos hac] at h2 ⊢
        exact ltTxt_trans s t u h1 h2
      · rw [if_neg hac] at h2 ⊢
        exact h2
    · rw [if_neg hab] at h1
      by_cases hbc : b = c
      · subst hbc
        rw [if_neg hab]
        exact h1
      · rw [if_neg hbc] at h2
        have h1 := of_decide_eq_true h1
        have h2 := of_decide_eq_true h2
        have hac : a ≠ c := by rintro rfl; omega
        rw [if_neg hac]
        exact decide_eq_true (by omega)

theorem ltTxt_tri : ∀ a b, ltTxt a b = true ∨ a = b ∨ ltTxt b a = true
  | [], [] => .inr (.inl rfl)
  | [], _ :: _ => .inl rfl
  | _ :: _, [] => .inr (.inr rfl)
  | a :: s, b :: t => by
    rw [ltTxt, ltTxt]
    by_cases hab : a = b
    · subst hab
      rw [if_pos rfl, if_pos rfl]
      rcases ltTxt_tri s t with h | h | h
      · exact .inl h
      · exact .inr (.inl (by rw [h]))
      · exact .inr (.inr h)
    · rw [if_neg hab, if_neg (Ne.symm hab)]
      have : a.toNat ≠ b.toNat := fun h => hab (char_eq h)
      rcases Nat.lt_or_gt_of_ne this with h | h
      · exact .inl (decide_eq_true h)
      · exact .inr (.inr (decide_eq_true h))

theorem ltTxt_order : StrictOrder ltTxt := ⟨ltTxt_irr, ltTxt_trans, ltTxt_tri⟩

theorem ltNat_order : StrictOrder ltNat where
  irr a := by simp [ltNat]
  trans a b c h1 h2 := by simp only [ltNat, decide_eq_true_eq] at *; omega
  tri a b := by simp only [ltNat, decide_eq_true_eq]; omega

section
variable {K V : Type} [DecidableEq K] {lt : K → K → Bool}

def Sorted (lt : K → K → Bool) (m : List (K × V)) : Prop := m.Pairwise fun a b => lt a.1 b.1 = true

theorem mem_sput {k : K} {v : V} : ∀ {m : List (K × V)} {e : K × V}, e ∈ sput lt k v m →
    e = (k, v) ∨ e ∈ m
  | [], e, h => .inl (List.mem_singleton.1 h)
  | x :: r, e, h => by
    rw [sput] at h
    split at h
    · rcases List.mem_cons.1 h with h | h
      · exact .inl h
      · exact .inr (List.mem_cons_of_mem _ h)
    · split at h
      · rcases List.mem_cons.1 h with h | h
        · exact .inl h
        · exact .inr h
      · rcases List.mem_cons.1 h with h | h
        · exact .inr (h ▸ List.mem_cons_self)
        · rcases mem_sput h with h | h
          · exact .inl h
          · exact .inr (List.mem_cons_of_mem _ h)

theorem sorted_sput (ho : StrictOrder lt) (k : K) (v : V) : ∀ {m : List (K × V)}, Sorted lt m →
    Sorted lt (sput lt k v m)
  | [], _ => List.pairwise_singleton _ _
  | x :: r, h => by
    obtain ⟨h1, h2⟩ := List.pairwise_cons.1 h
    rw [sput]
    split
    · rename_i hk
      exact List.pairwise_cons.2 ⟨fun e he => hk ▸ h1 e he, h2⟩
    · split
      · rename_i hl
        refine List.pairwise_cons.2 ⟨fun e he => ?_, h⟩
        rcases List.mem_cons.1 he with rfl | he
        · exact hl
        · exact ho.trans _ _ _ hl (h1 e he)
      · rename_i hk hl
        refine List.pairwise_cons.2 ⟨fun e he => ?_, sorted_sput ho k v h2⟩
        rcases mem_sput he with rfl | he
        · rcases ho.tri k x.1 with h | h | h
          · exact absurd h hl
          · exact absurd h hk
          · exact h
        · exact h1 e he

theorem find_sput (k k' : K) (v : V) : ∀ (m : List (K × V)),
    Map.find (sput lt k v m) k' = if k = k' then some v else Map.find m k'
  | [] => by simp [sput, Map.find]
  | x :: r => by
    have ih := find_sput k k' v r
    rw [sput]
    split
    · rename_i hk
      simp only [Map.find]
      by_cases h : k = k'
      · simp [h]
      · have : x.1 ≠ k' := fun h' => h (hk.trans h')
        simp [h, this]
    · split
      · simp only [Map.find]
      · rename_i hk _
        simp only [Map.find, ih]
        by_cases h : k = k'
        · have : x.1 ≠ k' := fun h' => hk (h.trans h'.symm)
          simp [h, this]
        · simp [h]

omit [DecidableEq K] in
theorem sorted_nodup (ho : StrictOrder lt) {m : List (K × V)} (h : Sorted lt m) :
    (Map.keys m).Nodup := by
  unfold Map.keys
  rw [List.Nodup, List.pairwise_map]
  refine List.Pairwise.imp ?_ h
  intro a b hl he
  rw [he, ho.irr] at hl
  cases hl

theorem find_sorted (ho : StrictOrder lt) {m : List (K × V)} (h : Sorted lt m) {k : K} {v : V} :
    Map.find m k = some v ↔ (k, v) ∈ m :=
  ⟨Map.mem_of_find, Map.find_of_mem (sorted_nodup ho h)⟩

end

/-! ## Lemmas: counting -/

theorem find_bumps (k : Nat) : ∀ (l : List Nat) (m : Map Nat Nat),
    Map.find (l.foldl bump m) k =
      if k ∈ l then some ((Map.find m k).getD 0 + l.count k) else Map.find m k
  | [], m => by simp
  | x :: l, m => by
    rw [List.foldl_cons, find_bumps k l]
    have hb : Map.find (bump m x) k = if x = k then some ((Map.find m x).getD 0 + 1) else Map.find m k := by
      unfold bump
      rw [Map.find_put]
      by_cases h : x = k
      · simp [h]
      · simp [h, Ne.symm h]
    rw [hb]
    by_cases hx : x = k
    · subst hx
      by_cases hm : x ∈ l
      · simp [hm]; omega
      · simp [hm, List.count_eq_zero_of_not_mem hm]
    · have hx' : k ≠ x := fun h => hx h.symm
      simp [hx, hx']

theorem bumps_nodup : ∀ (l : List Nat) (m : Map Nat Nat), (Map.keys m).Nodup →
    (Map.keys (l.foldl bump m)).Nodup
  | [], _, h => h
  | _ :: l, _, h => bumps_nodup l _ (Map.nodup_put h _ _)

theorem count_nodup : ∀ {l : List Nat} {i : Nat}, l.Nodup → i ∈ l → l.count i = 1
  | x :: l, i, hn, h => by
    obtain ⟨h1, h2⟩ := List.nodup_cons.1 hn
    rw [List.count_cons]
    rcases List.mem_cons.1 h with rfl | h
    · rw [List.count_eq_zero_of_not_mem h1]; simp
    · have : x ≠ i := fun e => h1 (e ▸ h)
      rw [count_nodup h2 h]; simp [this]

theorem count_runs : ∀ (runs : List (List Nat)), (∀ r ∈ runs, r.Nodup) → ∀ i,
    runs.flatten.count i = (runs.filter fun r => decide (i ∈ r)).length
  | [], _, _ => rfl
  | r :: runs, h, i => by
    have hr := h r List.mem_cons_self
    rw [List.flatten_cons, List.count_append,
      count_runs runs (fun x hx => h x (List.mem_cons_of_mem _ hx)), List.filter_cons]
    by_cases hi : i ∈ r
    · rw [count_nodup hr hi, if_pos (decide_eq_true hi), List.length_cons]
      omega
    · rw [List.count_eq_zero_of_not_mem hi, if_neg (by simpa using hi)]
      omega

/-- The count of a block. -/
theorem find_branchCount {maps : Map Nat (List Nat)} {runs : List (List Nat)}
    (hs : ∀ e ∈ maps, e.2.Nodup) (hp : (maps.map (·.2)).Perm runs) (i : Nat) :
    (branchCount maps).find i = if 0 < (runs.filter fun r => decide (i ∈ r)).length then
      some (runs.filter fun r => decide (i ∈ r)).length else none := by
  have hr : ∀ r ∈ runs, r.Nodup := by
    intro r hr
    obtain ⟨e, he, rfl⟩ := List.mem_map.1 (hp.mem_iff.2 hr)
    exact hs e he
  have e : maps.flatMap (·.2) = (maps.map (·.2)).flatten := by rw [List.flatMap_def]
  have hc : (maps.flatMap (·.2)).count i = (runs.filter fun r => decide (i ∈ r)).length := by
    rw [e, hp.flatten.count_eq, count_runs runs hr]
  unfold branchCount
  rw [find_bumps, ← hc]
  by_cases h : i ∈ maps.flatMap (·.2)
  · rw [if_pos h, if_pos (List.count_pos_iff.2 h)]
    simp [Map.find]
  · rw [if_neg h, List.count_eq_zero_of_not_mem h]
    rfl

/-- The fold that fills `line_cover_count`. -/
theorem find_emplaces (g : Node → Option Nat) : ∀ (l : List Node) (m : Map Nat Nat) (i : Nat),
    Map.find (l.foldl (fun m n => match g n with | none => m | some c => Map.emplace m n.id c) m) i =
      (Map.find m i).or ((l.filter fun n => decide (n.id = i)).findSome? g)
  | [], m, i => by simp
  | n :: l, m, i => by
    rw [List.foldl_cons, find_emplaces g l, List.filter_cons]
    by_cases hi : n.id = i
    · subst hi
      rw [if_pos (by simp), List.findSome?_cons]
      cases hg : g n with
      | none => rfl
      | some c =>
        simp only [Map.find_emplace]
        cases hm : Map.find m n.id <;> simp
    · rw [if_neg (by simpa using hi)]
      cases hg : g n with
      | none => rfl
      | some c =>
        simp only [Map.find_emplace]
        cases hm : Map.find m i <;> simp [Ne.symm hi]

theorem emplaces_nodup (g : Node → Option Nat) : ∀ (l : List Node) (m : Map Nat Nat),
    (Map.keys m).Nodup →
    (Map.keys (l.foldl (fun m n => match g n with | none => m | some c => Map.emplace m n.id c) m)).Nodup
  | [], _, h => h
  | n :: l, m, h => by
    rw [List.foldl_cons]
    refine emplaces_nodup g l _ ?_
    cases g n with
    | none => exact h
    | some c => exact Map.nodup_emplace h _ _


/-! ## Lemmas: files, lines and classes -/

/-- Lookup in a map of maps. -/
def find2 (m : Map Txt (Map Nat Node)) (k : Txt) (l : Nat) : Option Node :=
  (Map.find m k).bind fun c => Map.find c l

/-- Both levels are sorted. -/
def Sorted2 (m : Map Txt (Map Nat Node)) : Prop :=
  Sorted ltTxt m ∧ ∀ e ∈ m, Sorted ltNat e.2

theorem find_in_sorted2 {m : Map Txt (Map Nat Node)} (h : Sorted2 m) (k : Txt) :
    Sorted ltNat ((Map.find m k).getD []) := by
  cases hf : Map.find m k with
  | none => exact List.Pairwise.nil
  | some c => exact h.2 _ (Map.mem_of_find hf)

theorem find2_iff {m : Map Txt (Map Nat Node)} (h : Sorted2 m) {k : Txt} {l : Nat} {n : Node} :
    find2 m k l = some n ↔ ∃ c, (k, c) ∈ m ∧ (l, n) ∈ c := by
  unfold find2
  constructor
  · intro hf
    cases hc : Map.find m k with
    | none => rw [hc] at hf; cases hf
    | some c =>
      rw [hc] at hf
      exact ⟨c, Map.mem_of_find hc, Map.mem_of_find hf⟩
  · rintro ⟨c, hc, hn⟩
    rw [(find_sorted ltTxt_order h.1).2 hc]
    exact (find_sorted ltNat_order (h.2 _ hc)).2 hn

theorem sorted2_sput {m : Map Txt (Map Nat Node)} (h : Sorted2 m) (k : Txt) {c : Map Nat Node}
    (hc : Sorted ltNat c) : Sorted2 (sput ltTxt k c m) := by
  refine ⟨sorted_sput ltTxt_order k c h.1, fun e he => ?_⟩
  rcases mem_sput he with rfl | he
  · exact hc
  · exact h.2 e he

theorem putCov_sorted {m : Map Txt (Map Nat Node)} (h : Sorted2 m) (n : Node) :
    Sorted2 (putCov m n) := by
  unfold putCov
  split
  · exact h
  · exact sorted2_sput h _ (sorted_sput ltNat_order _ _ (find_in_sorted2 h _))

theorem find2_putCov (m : Map Txt (Map Nat Node)) (n : Node) (fn : Txt) (ln : Nat) :
    find2 (putCov m n) fn ln = if n.dbg = some (fn, ln) then some n else find2 m fn ln := by
  unfold putCov
  split
  · rename_i h
    rw [h, if_neg (by simp)]
  · rename_i f l h
    rw [h]
    unfold find2
    rw [find_sput]
    by_cases hf : f = fn
    · subst hf
      rw [if_pos rfl, Option.bind_some, find_sput]
      by_cases hl : l = ln
      · subst hl; simp
      · have : ¬ (some (f, l) = some (f, ln)) := by simp [hl]
        rw [if_neg hl, if_neg this]
        cases Map.find m f <;> rfl
    · have : ¬ (some (f, l) = some (fn, ln)) := by simp [hf]
      rw [if_neg hf, if_neg this]

theorem covs_sorted : ∀ (l : List Node) {m : Map Txt (Map Nat Node)}, Sorted2 m →
    Sorted2 (l.foldl putCov m)
  | [], _, h => h
  | n :: l, _, h => covs_sorted l (putCov_sorted h n)

theorem covs_keep : ∀ (l : List Node) (m : Map Txt (Map Nat Node)) (fn : Txt) (ln : Nat),
    (∀ n ∈ l, n.dbg ≠ some (fn, ln)) → find2 (l.foldl putCov m) fn ln = find2 m fn ln
  | [], _, _, _, _ => rfl
  | n :: l, m, fn, ln, h => by
    rw [List.foldl_cons, covs_keep l _ fn ln fun x hx => h x (List.mem_cons_of_mem _ hx),
      find2_putCov, if_neg (h n List.mem_cons_self)]

theorem covs_found : ∀ (l : List Node) (m : Map Txt (Map Nat Node)) (n : Node) (fn : Txt) (ln : Nat),
    n ∈ l → n.dbg = some (fn, ln) → (∀ x ∈ l, x.dbg = some (fn, ln) → x = n) →
    find2 (l.foldl putCov m) fn ln = some n
  | x :: l, m, n, fn, ln, hn, hd, hu => by
    rw [List.foldl_cons]
    by_cases h : ∃ y ∈ l, y.dbg = some (fn, ln)
    · obtain ⟨y, hy, hyd⟩ := h
      have : y = n := hu y (List.mem_cons_of_mem _ hy) hyd
      exact covs_found l _ n fn ln (this ▸ hy) hd fun z hz => hu z (List.mem_cons_of_mem _ hz)
    · have hk : ∀ y ∈ l, y.dbg ≠ some (fn, ln) := fun y hy hyd => h ⟨y, hy, hyd⟩
      rw [covs_keep l _ fn ln hk, find2_putCov]
      rcases List.mem_cons.1 hn with rfl | hn
      · rw [if_pos hd]
      · exact absurd hd (hk n hn)

theorem covs_from : ∀ (l : List Node) (m : Map Txt (Map Nat Node)) (n : Node) (fn : Txt) (ln : Nat),
    find2 (l.foldl putCov m) fn ln = some n →
      (n ∈ l ∧ n.dbg = some (fn, ln)) ∨ find2 m fn ln = some n
  | [], _, _, _, _, h => .inr h
  | x :: l, m, n, fn, ln, h => by
    rcases covs_from l _ n fn ln h with ⟨h1, h2⟩ | h
    · exact .inl ⟨List.mem_cons_of_mem _ h1, h2⟩
    · rw [find2_putCov] at h
      split at h
      · rename_i hd
        cases h
        exact .inl ⟨List.mem_cons_self, hd⟩
      · exact .inr h

/-- No file without a line. -/
theorem covs_nonempty : ∀ (l : List Node) (m : Map Txt (Map Nat Node)), (∀ e ∈ m, e.2 ≠ []) →
    ∀ e ∈ l.foldl putCov m, e.2 ≠ []
  | [], _, h => h
  | n :: l, m, h => by
    refine covs_nonempty l _ ?_
    unfold putCov
    split
    · exact h
    · intro e he
      rcases mem_sput he with rfl | he
      · intro hc
        have := find_sput (lt := ltNat) ‹Nat› ‹Nat› n ((Map.find m ‹Txt›).getD [])
        simp only [] at hc
        rw [hc] at this
        simp [Map.find] at this
      · exact h e he

theorem putClass_sorted {m : Map Txt (Map Nat Node)} (h : Sorted2 m) (e : Nat × Node) :
    Sorted2 (putClass m e) := by
  unfold putClass
  refine sorted2_sput h _ ?_
  split
  · exact find_in_sorted2 h _
  · exact sorted_sput ltNat_order _ _ (find_in_sorted2 h _)

theorem find_add (cov : Map Nat Node) (k l : Nat) (n : Node) :
    Map.find (if Map.has cov k then cov else sput ltNat k n cov) l =
      if k = l then some ((Map.find cov l).getD n) else Map.find cov l := by
  unfold Map.has
  cases hc : Map.find cov k with
  | none =>
    rw [if_neg (by simp), find_sput]
    by_cases h : k = l
    · subst h; simp [hc]
    · simp [h]
  | some v =>
    rw [if_pos (show (some v).isSome = true from rfl)]
    by_cases h : k = l
    · subst h; simp [hc]
    · simp [h]

theorem find2_putClass (m : Map Txt (Map Nat Node)) (e : Nat × Node) (g : Txt) (l : Nat) :
    find2 (putClass m e) g l =
      if e.2.gen = g ∧ e.1 = l then some ((find2 m g l).getD e.2) else find2 m g l := by
  unfold putClass find2
  rw [find_sput]
  by_cases hg : e.2.gen = g
  · subst hg
    refine Eq.trans (congrArg (fun o => Option.bind o fun c => Map.find c l) (if_pos rfl)) ?_
    rw [Option.bind_some, find_add]
    by_cases hl : e.1 = l
    · subst hl
      cases Map.find m e.2.gen <;> simp [Map.find]
    · cases Map.find m e.2.gen <;> simp [Map.find, hl]
  · have : ¬ (e.2.gen = g ∧ e.1 = l) := fun h => hg h.1
    rw [if_neg hg, if_neg this]

theorem classes_sorted : ∀ (l : Map Nat Node) {m : Map Txt (Map Nat Node)}, Sorted2 m →
    Sorted2 (l.foldl putClass m)
  | [], _, h => h
  | n :: l, _, h => classes_sorted l (putClass_sorted h n)

theorem classes_find : ∀ (st : Map Nat Node) (m : Map Txt (Map Nat Node)) (g : Txt) (l : Nat) (n : Node),
    (Map.keys st).Nodup → (∀ e ∈ st, ∀ g, find2 m g e.1 = none) →
    (find2 (st.foldl putClass m) g l = some n ↔
      find2 m g l = some n ∨ ((l, n) ∈ st ∧ n.gen = g))
  | [], _, _, _, _, _, _ => by simp
  | e :: st, m, g, l, n, hn, hm => by
    have hn' : (e.1 :: Map.keys st).Nodup := hn
    obtain ⟨h1, h2⟩ := List.nodup_cons.1 hn'
    have hne : ∀ x ∈ st, x.1 ≠ e.1 := fun x hx h => h1 (Map.mem_keys.2 ⟨x.2, h ▸ hx⟩)
    rw [List.foldl_cons, classes_find st _ g l n h2, find2_putClass]
    · have he := hm e List.mem_cons_self
      by_cases hg : e.2.gen = g ∧ e.1 = l
      · obtain ⟨rfl, rfl⟩ := hg
        rw [if_pos ⟨rfl, rfl⟩, he]
        simp only [Option.getD_none, Option.some.injEq, List.mem_cons, reduceCtorEq, false_or]
        constructor
        · rintro (rfl | ⟨h, _⟩)
          · exact ⟨.inl rfl, rfl⟩
          · exact absurd rfl (hne (e.1, n) h)
        · rintro ⟨h | h, hg⟩
          · exact .inl (by rw [← h])
          · exact absurd rfl (hne (e.1, n) h)
      · rw [if_neg hg]
        refine or_congr Iff.rfl (and_congr_left fun hgen => ?_)
        rw [List.mem_cons]
        constructor
        · exact .inr
        · rintro (rfl | h)
          · exact absurd ⟨hgen, rfl⟩ hg
          · exact h
    · intro x hx g'
      rw [find2_putClass, if_neg (fun h => hne x hx h.2.symm)]
      exact hm x (List.mem_cons_of_mem _ hx) g'

/-- The classes hold the lines, each in the class of its generator. -/
theorem classesOf_iff {st : Map Nat Node} (hs : Sorted ltNat st) {g : Txt} {l : Nat} {n : Node} :
    (∃ c, (g, c) ∈ classesOf st ∧ (l, n) ∈ c) ↔ (l, n) ∈ st ∧ n.gen = g := by
  have h0 : Sorted2 [] := ⟨List.Pairwise.nil, by simp⟩
  have h := classes_find st [] g l n (sorted_nodup ltNat_order hs) (fun _ _ _ => rfl)
  unfold classesOf
  rw [← find2_iff (classes_sorted st h0), h]
  simp [find2, Map.find]

/-! ## Lemmas: paths -/

theorem mismatch_some : ∀ {c d : Txt} {m : Nat}, mismatch c d = some m → c.take m <+: d
  | [], d, m, h => by simp
  | _ :: _, [], _, h => by cases h
  | a :: s, b :: t, m, h => by
    rw [mismatch] at h
    split at h
    · rename_i hab
      subst hab
      cases hm : mismatch s t with
      | none => rw [hm] at h; cases h
      | some k =>
        rw [hm] at h
        simp only [Option.map_some, Option.some.injEq] at h
        subst h
        rw [List.take_succ_cons]
        exact List.cons_prefix_cons.2 ⟨rfl, mismatch_some hm⟩
    · cases h
      simp

theorem mismatch_none : ∀ {c d : Txt}, mismatch c d = none → ltTxt d c = true
  | [], d, h => by cases h
  | _ :: _, [], _ => rfl
  | a :: s, b :: t, h => by
    rw [mismatch] at h
    split at h
    · rename_i hab
      rw [ltTxt, if_pos hab.symm]
      cases hm : mismatch s t with
      | none => exact mismatch_none hm
      | some k => rw [hm] at h; cases h
    · cases h

theorem prefix_take {c d : Txt} {m p : Nat} (h : c.take m <+: d) (hp : p ≤ m) : c.take p <+: d := by
  refine List.IsPrefix.trans ?_ h
  rw [show c.take p = (c.take m).take p by rw [List.take_take, Nat.min_eq_left hp]]
  exact List.take_prefix _ _

theorem common_ok (c : Txt) : ∀ (ds : List Txt) (max : Nat), (∀ d ∈ ds, ltTxt c d = true) →
    ∃ m, common c max ds = .ok m ∧ m ≤ max ∧ ∀ d ∈ ds, c.take m <+: d
  | [], max, _ => ⟨max, rfl, Nat.le_refl _, by simp⟩
  | d :: ds, max, h => by
    have hd := h d List.mem_cons_self
    cases hm : mismatch c d with
    | none =>
      have := ltTxt_trans _ _ _ hd (mismatch_none hm)
      rw [ltTxt_irr] at this
      cases this
    | some k =>
      obtain ⟨m, h1, h2, h3⟩ := common_ok c ds (if k < max then k else max)
        fun x hx => h x (List.mem_cons_of_mem _ hx)
      have hle : m ≤ k ∧ m ≤ max := by split at h2 <;> omega
      refine ⟨m, by rw [common, hm]; exact h1, hle.2, fun x hx => ?_⟩
      rcases List.mem_cons.1 hx with rfl | hx
      · exact prefix_take (mismatch_some hm) hle.1
      · exact h3 x hx

theorem rfind_ok {c : Txt} (h : c[0]? = some '/') : ∀ m, ∃ p, p ≤ m ∧ rfind c '/' m = some p ∧
    c[p]? = some '/'
  | 0 => ⟨0, Nat.le_refl _, by rw [rfind, if_pos h], h⟩
  | m + 1 => by
    rw [rfind]
    split
    · exact ⟨m + 1, Nat.le_refl _, rfl, by assumption⟩
    · obtain ⟨p, h1, h2, h3⟩ := rfind_ok h m
      exact ⟨p, by omega, h2, h3⟩

theorem ltTxt_append : ∀ (q a b : Txt), ltTxt (q ++ a) (q ++ b) = ltTxt a b
  | [], _, _ => rfl
  | x :: q, a, b => by rw [List.cons_append, List.cons_append, ltTxt, if_pos rfl, ltTxt_append q]

/-- The root is followed by a separator in every file name. -/
theorem root_ok {c : Txt} {rest : List Txt} (hs : ∀ d ∈ rest, ltTxt c d = true)
    (ha : ∃ t, c = '/' :: t)
    (hp : ∀ d ∈ rest, ∀ q r x s, c = q ++ '/' :: r → d = q ++ x :: s → x.toNat ≤ '/'.toNat) :
    ∃ root, longestPath (c :: rest) = .ok root ∧ (∀ d ∈ c :: rest, ∃ n, d = root ++ '/' :: n) ∧
      (root = [] ∨ ∃ t, root = '/' :: t) := by
  obtain ⟨m, h1, _, h3⟩ := common_ok c rest c.length hs
  have h0 : c[0]? = some '/' := by obtain ⟨t, rfl⟩ := ha; rfl
  obtain ⟨p, hpm, hr, hsep⟩ := rfind_ok h0 m
  obtain ⟨hlt, hget⟩ := List.getElem?_eq_some_iff.1 hsep
  have hc : c = c.take p ++ '/' :: c.drop (p + 1) := by
    have := List.drop_eq_getElem_cons hlt
    rw [hget] at this
    rw [← this, List.take_append_drop]
  refine ⟨c.take p, ?_, fun d hd => ?_, ?_⟩
  · rw [longestPath, h1, Res.ok_bind, hr]
  · rcases List.mem_cons.1 hd with rfl | hd
    · exact ⟨_, hc⟩
    · obtain ⟨t, ht⟩ := prefix_take (h3 d hd) hpm
      have hlt' := hs d hd
      cases t with
      | nil =>
        rw [List.append_nil] at ht
        have : ltTxt d c = true := by
          rw [← ht]
          have := ltTxt_append (c.take p) [] ('/' :: c.drop (p + 1))
          rw [List.append_nil, ← hc] at this
          rw [this]; rfl
        have := ltTxt_trans _ _ _ hlt' this
        rw [ltTxt_irr] at this
        cases this
      | cons x s =>
        have hx := hp d hd _ _ x s hc ht.symm
        by_cases he : x = '/'
        · subst he; exact ⟨s, ht.symm⟩
        · exfalso
          have hne : x.toNat ≠ '/'.toNat := fun h => he (char_eq h)
          have : ltTxt d c = true := by
            rw [← ht]
            have := ltTxt_append (c.take p) (x :: s) ('/' :: c.drop (p + 1))
            rw [← hc] at this
            rw [this, ltTxt, if_neg he]
            exact decide_eq_true (by omega)
          have := ltTxt_trans _ _ _ hlt' this
          rw [ltTxt_irr] at this
          cases this
  · obtain ⟨t, rfl⟩ := ha
    cases p with
    | zero => exact .inl rfl
    | succ p => exact .inr ⟨_, rfl⟩

theorem findTxt_prefix (root t : Txt) : findTxt root (root ++ t) = some 0 := by
  have h : root.isPrefixOf (root ++ t) = true := List.isPrefixOf_iff_prefix.2 (List.prefix_append _ _)
  cases hr : root ++ t with
  | nil => rw [hr] at h; rw [findTxt, if_pos h]
  | cons c u => rw [hr] at h; rw [findTxt, if_pos h]

theorem afterRoot_ok {root n : Txt} (h : ∀ q r, root ++ '/' :: n ≠ q ++ '/' :: '/' :: r) :
    afterRoot root (root ++ '/' :: n) = .ok n := by
  unfold afterRoot
  rw [findTxt_prefix]
  have h1 : ¬ (0 + root.length > (root ++ '/' :: n).length) := by simp
  have h2 : (root ++ '/' :: n).drop (0 + root.length) = '/' :: n := by simp
  simp only [if_neg h1, h2]
  rw [List.dropWhile_cons, if_pos (by decide)]
  cases n with
  | nil => rfl
  | cons x n =>
    rw [List.dropWhile_cons, if_neg]
    intro hx
    have hx : x = '/' := by simpa using hx
    exact h root n (by rw [hx])

/-! ## Lemmas: the document -/

instance (t : Txt) : Decidable (NameText t) := by unfold NameText; infer_instance

def lineDoc : List (Nat × Nat) → Doc
  | [] => .nil
  | l :: ls => .elt tLine [(aNumber, printNat 10 l.1), (aHits, printNat 10 l.2), (aBranch, vFalse)] .nil
    (lineDoc ls)

def classDoc (one : Txt) : List Cls → Doc
  | [] => .nil
  | c :: cs => .elt tClass [(aName, c.name), (aFilename, c.file), (aLineRate, one), (aBranchRate, one),
      (aComplexity, one)] (.elt tMethods [] .nil (.elt tLines [] (lineDoc c.lines) .nil)) (classDoc one cs)

def topAttrs (X : Texts) (T : Totals) : List (Txt × Txt) :=
  [(aLineRate, if T.linesValid > 0 then X.rate T.linesCovered T.linesValid else X.zero),
    (aBranchRate, if T.branchesValid > 0 then X.rate T.branchesCovered T.branchesValid else X.zero),
    (aLinesCovered, printNat 10 T.linesCovered), (aLinesValid, printNat 10 T.linesValid),
    (aBranchesCovered, printNat 10 T.branchesCovered), (aBranchesValid, printNat 10 T.branchesValid),
    (aComplexity, X.zero), (aTimestamp, X.time), (aVersion, vVersion)]

def reportDoc (X : Texts) (T : Totals) (root : Txt) (cs : List Cls) : Doc :=
  .elt tCoverage (topAttrs X T) (.elt tSources [] (.leaf tSource [] root .nil)
    (.elt tPackages [] (.elt tPackage [] (.elt tClasses [(aLineRate, X.one), (aBranchRate, X.one),
      (aComplexity, X.one)] (classDoc X.one cs) .nil) .nil) .nil)) .nil

theorem lineDoc_calls : ∀ ls, (lineDoc ls).calls = ls.flatMap lineCalls
  | [] => rfl
  | l :: ls => by
    rw [List.flatMap_cons, ← lineDoc_calls ls]
    simp [lineDoc, Doc.calls, lineCalls]

theorem classDoc_calls (one : Txt) : ∀ cs, (classDoc one cs).calls = cs.flatMap (classCalls one)
  | [] => rfl
  | c :: cs => by
    rw [List.flatMap_cons, ← classDoc_calls one cs]
    simp [classDoc, Doc.calls, classCalls, lineDoc_calls]

theorem lineDoc_named : ∀ ls, (lineDoc ls).named
  | [] => trivial
  | l :: ls => by
    refine ⟨by decide, ?_, trivial, lineDoc_named ls⟩
    intro a ha
    simp only [List.mem_cons, List.not_mem_nil, or_false] at ha
    rcases ha with rfl | rfl | rfl
    · exact (by decide : NameText aNumber)
    · exact (by decide : NameText aHits)
    · exact (by decide : NameText aBranch)

theorem named_of_keys {attrs : List (Txt × Txt)} (h : ∀ k ∈ attrs.map (·.1), NameText k) :
    ∀ a ∈ attrs, NameText a.1 := fun a ha => h _ (List.mem_map_of_mem ha)

theorem classDoc_named (one : Txt) : ∀ cs, (classDoc one cs).named
  | [] => trivial
  | c :: cs => by
    refine ⟨by decide, named_of_keys ?_, ⟨by decide, by simp, trivial, by decide, by simp,
      lineDoc_named _, trivial⟩, classDoc_named one cs⟩
    show ∀ k ∈ [aName, aFilename, aLineRate, aBranchRate, aComplexity], NameText k
    decide

theorem reportDoc_named (X : Texts) (T : Totals) (root : Txt) (cs : List Cls) :
    (reportDoc X T root cs).named := by
  refine ⟨by decide, named_of_keys ?_, ⟨by decide, by simp, ⟨by decide, by simp, trivial⟩, by decide, by simp,
    ⟨by decide, by simp, ⟨by decide, named_of_keys ?_, classDoc_named _ _, trivial⟩, trivial⟩, trivial⟩,
    trivial⟩
  · show ∀ k ∈ [aLineRate, aBranchRate, aLinesCovered, aLinesValid, aBranchesCovered, aBranchesValid,
      aComplexity, aTimestamp, aVersion], NameText k
    decide
  · show ∀ k ∈ [aLineRate, aBranchRate, aComplexity], NameText k
    decide

theorem reportDoc_calls (X : Texts) (T : Totals) (root : Txt) (cs : List Cls) :
    (reportDoc X T root cs).calls = headCalls X T root ++ cs.flatMap (classCalls X.one) ++
      List.replicate 4 .closeElt := by
  rw [← classDoc_calls]
  simp [reportDoc, Doc.calls, headCalls, topAttrs, List.replicate]

/-- What is written reads as the document. -/
theorem written (X : Texts) (T : Totals) (root : Txt) (cs : List Cls) :
    ∃ w, calls (start doctype) (headCalls X T root ++ cs.flatMap (classCalls X.one) ++ [.closeAll]) =
      .ok w ∧ read false [] w.out = (reportDoc X T root cs).events := by
  obtain ⟨w, h1, _, _, h4⟩ := document_reads_back (reportDoc X T root cs) (reportDoc_named X T root cs)
    ((doctype.drop 2).dropLast) (by decide)
  have hd : '<' :: '!' :: ((doctype.drop 2).dropLast ++ ['>']) = doctype := by decide
  rw [hd] at h1
  refine ⟨w, ?_, h4⟩
  rw [← h1, reportDoc_calls]
  have hh : ∃ w1, calls (start doctype) (headCalls X T root) = .ok w1 ∧
      w1.stack = [tClasses, tPackage, tPackages, tCoverage] := ⟨_, rfl, rfl⟩
  obtain ⟨w1, hw1, hst⟩ := hh
  rw [calls_append, calls_append, calls_append, calls_append, hw1, Res.ok_bind, ← classDoc_calls,
    writes, Res.ok_bind, Res.ok_bind]
  have hst2 : (afterDoc (classDoc X.one cs) w1).stack.length = 4 := by
    unfold afterDoc
    split <;> rw [hst] <;> rfl
  rw [calls_closeN, calls, call, hst2]
  cases closeN 4 (afterDoc (classDoc X.one cs) w1) <;> rfl

/-! ## Lemmas: reading the report -/

def rowOf (c : Cls) (l : Nat × Nat) : Row := ⟨some c.name, some c.file, some l.1, some l.2⟩

theorem rows_lines (n f : Option Txt) : ∀ (ls : List (Nat × Nat)) (r : List Ev),
    rows n f ((lineDoc ls).events ++ r) = (ls.map fun l => ⟨n, f, some l.1, some l.2⟩) ++ rows n f r
  | [], _ => rfl
  | l :: ls, r => by
    have ih := rows_lines n f ls r
    simp only [lineDoc, Doc.events, List.nil_append, List.cons_append]
    rw [rows, if_neg (by decide), if_pos (by decide), rows, ih, List.map_cons, List.cons_append]
    · congr 1
      have h1 : List.lookup ['n', 'u', 'm', 'b', 'e', 'r'] [(aNumber, printNat 10 l.1),
        (aHits, printNat 10 l.2), (aBranch, vFalse)] = some (printNat 10 l.1) := rfl
      have h2 : List.lookup ['h', 'i', 't', 's'] [(aNumber, printNat 10 l.1),
        (aHits, printNat 10 l.2), (aBranch, vFalse)] = some (printNat 10 l.2) := rfl
      rw [h1, h2, Option.bind_some, Option.bind_some, readNat_printNat (.inl rfl), readNat_printNat (.inl rfl)]
    · intro tag attrs h; cases h

theorem rows_classes (one : Txt) : ∀ (cs : List Cls) (n f : Option Txt) (r : List Ev),
    ∃ n' f', rows n f ((classDoc one cs).events ++ r) =
      (cs.flatMap fun c => c.lines.map (rowOf c)) ++ rows n' f' r
  | [], n, f, r => ⟨n, f, rfl⟩
  | c :: cs, n, f, r => by
    obtain ⟨n', f', ih⟩ := rows_classes one cs (some c.name) (some c.file) r
    refine ⟨n', f', ?_⟩
    have h1 : List.lookup ['n', 'a', 'm', 'e'] [(aName, c.name), (aFilename, c.file), (aLineRate, one),
      (aBranchRate, one), (aComplexity, one)] = some c.name := rfl
    have h2 : List.lookup ['f', 'i', 'l', 'e', 'n', 'a', 'm', 'e'] [(aName, c.name), (aFilename, c.file),
      (aLineRate, one), (aBranchRate, one), (aComplexity, one)] = some c.file := rfl
    simp only [classDoc, Doc.events, List.nil_append, List.cons_append, List.append_assoc]
    rw [rows, if_pos (by decide), h1, h2, rows, if_neg (by decide), if_neg (by decide), rows, rows,
      if_neg (by decide), if_neg (by decide), rows_lines, rows, rows, ih, List.flatMap_cons,
      List.append_assoc]
    · rfl
    all_goals (intro tag attrs h; cases h)

theorem source_lines : ∀ (ls : List (Nat × Nat)) (r : List Ev),
    sourceOf ((lineDoc ls).events ++ r) = sourceOf r
  | [], _ => rfl
  | l :: ls, r => source_lines ls r

theorem source_classes (one : Txt) : ∀ (cs : List Cls) (r : List Ev),
    sourceOf ((classDoc one cs).events ++ r) = sourceOf r
  | [], _ => rfl
  | c :: cs, r => by
    have ih := source_classes one cs r
    simp only [classDoc, Doc.events, List.nil_append, List.cons_append, List.append_assoc]
    show sourceOf ((lineDoc c.lines).events ++ _) = _
    rw [source_lines]
    exact ih

theorem read_rows (X : Texts) (T : Totals) (root : Txt) (cs : List Cls) :
    rows none none (reportDoc X T root cs).events = cs.flatMap fun c => c.lines.map (rowOf c) := by
  have key : ∀ n f, rows n f ((classDoc X.one cs).events ++ [.stop tClasses, .stop tPackage, .stop tPackages,
      .stop tCoverage]) = cs.flatMap fun c => c.lines.map (rowOf c) := by
    intro n f
    obtain ⟨n', f', h⟩ := rows_classes X.one cs n f [.stop tClasses, .stop tPackage, .stop tPackages,
      .stop tCoverage]
    rw [h]
    exact List.append_nil _
  have e : (reportDoc X T root cs).events = .start tCoverage (topAttrs X T) :: .start tSources [] ::
      .start tSource [] :: ((if blank root then [] else [.text root]) ++ .stop tSource :: .stop tSources ::
      .start tPackages [] :: .start tPackage [] :: .start tClasses [(aLineRate, X.one),
      (aBranchRate, X.one), (aComplexity, X.one)] :: ((classDoc X.one cs).events ++ [.stop tClasses,
      .stop tPackage, .stop tPackages, .stop tCoverage])) := by
    simp [reportDoc, Doc.events]
  rw [e]
  by_cases hb : blank root = true
  · rw [if_pos hb]
    exact key none none
  · rw [if_neg hb]
    exact key none none

theorem read_source (X : Texts) (T : Totals) (root : Txt) (cs : List Cls)
    (hr : root = [] ∨ ∃ t, root = '/' :: t) :
    sourceOf (reportDoc X T root cs).events = root := by
  have e : (reportDoc X T root cs).events = .start tCoverage (topAttrs X T) :: .start tSources [] ::
      .start tSource [] :: ((if blank root then [] else [.text root]) ++ .stop tSource :: .stop tSources ::
      .start tPackages [] :: .start tPackage [] :: .start tClasses [(aLineRate, X.one),
      (aBranchRate, X.one), (aComplexity, X.one)] :: ((classDoc X.one cs).events ++ [.stop tClasses,
      .stop tPackage, .stop tPackages, .stop tCoverage])) := by
    simp [reportDoc, Doc.events]
  rw [e]
  rcases hr with rfl | ⟨t, rfl⟩
  · show sourceOf ((classDoc X.one cs).events ++ _) = []
    rw [source_classes]
    rfl
  · rfl

theorem read_totals (X : Texts) (T : Totals) (root : Txt) (cs : List Cls) :
    totalsOf (reportDoc X T root cs).events =
      [some T.linesCovered, some T.linesValid, some T.branchesCovered, some T.branchesValid] := by
  show [totalsOf.LC, totalsOf.LV, totalsOf.BC, totalsOf.BV].map (fun k =>
    ((topAttrs X T).lookup k).bind (readNat 10)) = _
  have h1 : (topAttrs X T).lookup totalsOf.LC = some (printNat 10 T.linesCovered) := rfl
  have h2 : (topAttrs X T).lookup totalsOf.LV = some (printNat 10 T.linesValid) := rfl
  have h3 : (topAttrs X T).lookup totalsOf.BC = some (printNat 10 T.branchesCovered) := rfl
  have h4 : (topAttrs X T).lookup totalsOf.BV = some (printNat 10 T.branchesValid) := rfl
  simp only [List.map_cons, List.map_nil, h1, h2, h3, h4, Option.bind_some,
    readNat_printNat (.inl rfl)]

/-! ## Lemmas: what is counted -/

theorem mem_totalLines {D : Design} {n : Node} :
    n ∈ totalLines D ↔ n ∈ D.assigns ∧ n.inScope = true ∧ n.dbg ≠ none := by
  unfold totalLines
  rw [List.mem_filter, Bool.and_eq_true, Option.isSome_iff_ne_none]

theorem mem_totalBranches {D : Design} {n : Node} :
    n ∈ totalBranches D ↔ n ∈ D.blocks ∧ n.dbg ≠ none := by
  unfold totalBranches
  rw [List.mem_filter, Option.isSome_iff_ne_none]

theorem reported_iff {D : Design} {n : Node} :
    Reported D n ↔ n ∈ totalLines D ++ totalBranches D := by
  rw [List.mem_append, mem_totalLines, mem_totalBranches, Reported]
  constructor
  · rintro ⟨h, ⟨h1, h2⟩ | h1⟩
    · exact .inl ⟨h1, h2, h⟩
    · exact .inr ⟨h1, h⟩
  · rintro (⟨h1, h2, h⟩ | ⟨h1, h⟩)
    · exact ⟨h, .inl ⟨h1, h2⟩⟩
    · exact ⟨h, .inr h1⟩

theorem Reported.mem {D : Design} {n : Node} (h : Reported D n) : n ∈ D.assigns ++ D.blocks := by
  rcases h.2 with h | h
  · exact List.mem_append_left _ h.1
  · exact List.mem_append_right _ h

theorem same_node {D : Design} {maps : Map Nat (List Nat)} (P : Proper D maps) {a b : Node}
    (ha : a ∈ D.assigns ++ D.blocks) (hb : b ∈ D.assigns ++ D.blocks) (h : a.id = b.id) : a = b :=
  Diagram.inj_of_nodup P.ids ha hb h

/-- An assignment is no block. -/
theorem assign_block {D : Design} {maps : Map Nat (List Nat)} (P : Proper D maps) {a b : Node}
    (ha : a ∈ D.assigns) (hb : b ∈ D.blocks) : a.id ≠ b.id := by
  have := P.ids
  rw [List.map_append, List.nodup_append] at this
  exact this.2.2 _ (List.mem_map_of_mem ha) _ (List.mem_map_of_mem hb)

abbrev times (runs : List (List Nat)) (i : Nat) : Nat := (runs.filter fun r => decide (i ∈ r)).length

theorem ranIn_block {D : Design} {maps : Map Nat (List Nat)} (P : Proper D maps) {runs : List (List Nat)}
    {n : Node} (hn : n ∈ D.blocks) {k : Nat} : ranIn runs D n k ↔ k = times runs n.id := by
  constructor
  · rintro (⟨_, h⟩ | ⟨h, _⟩)
    · exact h
    · exact absurd rfl (assign_block P h hn)
  · exact fun h => .inl ⟨hn, h⟩

theorem ranIn_assign {D : Design} {maps : Map Nat (List Nat)} (P : Proper D maps) {runs : List (List Nat)}
    {n : Node} (hn : n ∈ D.assigns) {b : Nat} (hb : n.parents.head? = some b) {k : Nat} :
    ranIn runs D n k ↔ k = times runs b := by
  constructor
  · rintro (⟨h, _⟩ | ⟨_, b', hb', h⟩)
    · exact absurd rfl (assign_block P hn h)
    · rw [hb] at hb'
      cases hb'
      exact h
  · exact fun h => .inr ⟨hn, b, hb, h⟩

section
variable {D : Design} {runs : List (List Nat)} {maps : Map Nat (List Nat)}

/-- The count an assignment gets, if any. -/
def lineHit (D : Design) (maps : Map Nat (List Nat)) (n : Node) : Option Nat :=
  (hasParent (totalBranches D) n).bind fun p => (branchCount maps).find p

theorem lineCount_eq (D : Design) (maps : Map Nat (List Nat)) : lineCount D maps =
    (totalLines D).foldl (fun m n => match lineHit D maps n with
      | none => m
      | some c => Map.emplace m n.id c) [] := by
  unfold lineCount lineHit
  congr 1
  funext m n
  cases hasParent (totalBranches D) n with
  | none => rfl
  | some p => rfl

theorem lineHit_eq (P : Proper D maps) (F : Fits D runs maps) {n : Node} (hn : n ∈ totalLines D) :
    ∃ b, n.parents.head? = some b ∧
      lineHit D maps n = if 0 < times runs b then some (times runs b) else none := by
  obtain ⟨h1, h2, h3⟩ := mem_totalLines.1 hn
  obtain ⟨b, hb, hd, hh⟩ := F.around n h1 h2 h3
  refine ⟨b.id, hh, ?_⟩
  have hp : hasParent (totalBranches D) n = some b.id := by
    unfold hasParent
    cases hps : n.parents with
    | nil => rw [hps] at hh; cases hh
    | cons p ps =>
      rw [hps] at hh
      cases hh
      rw [List.find?_cons]
      have : (totalBranches D).any (fun x => x.id == b.id) = true :=
        List.any_eq_true.2 ⟨b, mem_totalBranches.2 ⟨hb, hd⟩, by simp⟩
      rw [this]
  unfold lineHit
  rw [hp, Option.bind_some, find_branchCount P.sets F.computed]

theorem find_lineCount (P : Proper D maps) {n : Node} (hn : n ∈ D.assigns ++ D.blocks) :
    (lineCount D maps).find n.id = if n ∈ totalLines D then lineHit D maps n else none := by
  rw [lineCount_eq, find_emplaces]
  have hsub : ∀ x ∈ totalLines D, x ∈ D.assigns ++ D.blocks :=
    fun x hx => List.mem_append_left _ (mem_totalLines.1 hx).1
  have hf : ∀ x ∈ (totalLines D).filter fun x => decide (x.id = n.id), x = n := by
    intro x hx
    obtain ⟨h1, h2⟩ := List.mem_filter.1 hx
    exact same_node P (hsub x h1) hn (of_decide_eq_true h2)
  rw [show Map.find ([] : Map Nat Nat) n.id = none from rfl, Option.none_or]
  by_cases hm : n ∈ totalLines D
  · rw [if_pos hm]
    have hin : n ∈ (totalLines D).filter fun x => decide (x.id = n.id) :=
      List.mem_filter.2 ⟨hm, by simp⟩
    revert hf hin
    generalize (totalLines D).filter (fun x => decide (x.id = n.id)) = l
    intro hf hin
    cases hg : lineHit D maps n with
    | none =>
      rw [List.findSome?_eq_none_iff]
      intro x hx
      rw [hf x hx, hg]
    | some c =>
      cases l with
      | nil => cases hin
      | cons x l =>
        rw [List.findSome?_cons, hf x List.mem_cons_self, hg]
  · rw [if_neg hm, List.findSome?_eq_none_iff]
    intro x hx
    have := hf x hx
    exact absurd (this ▸ (List.mem_filter.1 hx).1) hm

/-- The number shown is the number of runs. -/
theorem hitsOf_ran (P : Proper D maps) (F : Fits D runs maps) {n : Node} (hn : Reported D n) :
    ranIn runs D n (hitsOf D maps n) := by
  have hbc := find_branchCount P.sets F.computed
  unfold hitsOf
  rw [find_lineCount P hn.mem]
  rcases hn.2 with ⟨h1, h2⟩ | hb
  · have hm : n ∈ totalLines D := mem_totalLines.2 ⟨h1, h2, hn.1⟩
    obtain ⟨b, hh, hl⟩ := lineHit_eq P F hm
    rw [if_pos hm, ranIn_assign P h1 hh, hl]
    by_cases hp : 0 < times runs b
    · rw [if_pos hp]
    · rw [if_neg hp, hbc]
      have hz : times runs n.id = 0 := by
        refine List.length_eq_zero_iff.2 (List.filter_eq_nil_iff.2 fun r hr hc => ?_)
        obtain ⟨b', hb', _, he⟩ := F.entered r hr n.id (of_decide_eq_true hc)
        exact assign_block P h1 hb' he.symm
      rw [if_neg (show ¬ 0 < times runs n.id by rw [hz]; exact Nat.lt_irrefl 0)]
      simp only [Option.getD_none]
      omega
  · have hm : n ∉ totalLines D := fun h => assign_block P (mem_totalLines.1 h).1 hb rfl
    rw [if_neg hm, ranIn_block P hb, hbc]
    by_cases hp : 0 < times runs n.id
    · rw [if_pos hp]; rfl
    · rw [if_neg hp]
      simp only [Option.getD_none]
      omega

theorem length_keys {m : Map Nat Nat} (hm : (Map.keys m).Nodup) {l : List Node}
    (hl : (l.map Node.id).Nodup) (h : ∀ i, i ∈ Map.keys m ↔ i ∈ l.map Node.id) : m.length = l.length := by
  have := (List.perm_ext_iff_of_nodup hm hl).2 h
  have := this.length_eq
  rwa [Map.keys, List.length_map, List.length_map] at this

theorem sub_nodup {l l' : List Node} (h : l.Sublist l') (hn : (l'.map Node.id).Nodup) :
    (l.map Node.id).Nodup := List.Nodup.sublist (h.map _) hn

theorem totals_right (P : Proper D maps) (F : Fits D runs maps) :
    ∃ ls bs lc bc : List Node,
    (ls.Nodup ∧ ∀ n, n ∈ ls ↔ n ∈ D.assigns ∧ n.inScope = true ∧ n.dbg ≠ none) ∧
    (bs.Nodup ∧ ∀ n, n ∈ bs ↔ n ∈ D.blocks ∧ n.dbg ≠ none) ∧
    (lc.Nodup ∧ ∀ n, n ∈ lc ↔ n ∈ ls ∧ ∃ k, ranIn runs D n k ∧ 0 < k) ∧
    (bc.Nodup ∧ ∀ n, n ∈ bc ↔ n ∈ bs ∧ ∃ k, ranIn runs D n k ∧ 0 < k) ∧
    totals D maps = ⟨lc.length, ls.length, bc.length, bs.length⟩ := by
  have hids := P.ids
  rw [List.map_append, List.nodup_append] at hids
  have hl : ((totalLines D).map Node.id).Nodup := sub_nodup List.filter_sublist hids.1
  have hb : ((totalBranches D).map Node.id).Nodup := sub_nodup List.filter_sublist hids.2.1
  have hlc : (((totalLines D).filter fun n => (lineHit D maps n).isSome).map Node.id).Nodup :=
    sub_nodup List.filter_sublist hl
  have hbc : (((totalBranches D).filter fun n => decide (0 < times runs n.id)).map Node.id).Nodup :=
    sub_nodup List.filter_sublist hb
  have hf := find_branchCount P.sets F.computed
  refine ⟨totalLines D, totalBranches D, (totalLines D).filter fun n => (lineHit D maps n).isSome,
    (totalBranches D).filter fun n => decide (0 < times runs n.id),
    ⟨Diagram.nodup_of_map hl, fun n => mem_totalLines⟩, ⟨Diagram.nodup_of_map hb, fun n => mem_totalBranches⟩,
    ⟨Diagram.nodup_of_map hlc, fun n => ?_⟩, ⟨Diagram.nodup_of_map hbc, fun n => ?_⟩, ?_⟩
  · rw [List.mem_filter]
    refine and_congr_right fun hn => ?_
    obtain ⟨b, hh, hg⟩ := lineHit_eq P F hn
    have h1 := (mem_totalLines.1 hn).1
    rw [hg]
    constructor
    · intro h
      refine ⟨times runs b, (ranIn_assign P h1 hh).2 rfl, ?_⟩
      split at h
      · assumption
      · cases h
    · rintro ⟨k, hk, hp⟩
      rw [ranIn_assign P h1 hh] at hk
      subst hk
      rw [if_pos hp]
      rfl
  · rw [List.mem_filter]
    refine and_congr_right fun hn => ?_
    have h1 := (mem_totalBranches.1 hn).1
    rw [decide_eq_true_eq]
    constructor
    · exact fun h => ⟨_, (ranIn_block P h1).2 rfl, h⟩
    · rintro ⟨k, hk, hp⟩
      rw [ranIn_block P h1] at hk
      exact hk ▸ hp
  · unfold totals
    congr 1
    · refine length_keys ?_ hlc fun i => ?_
      · rw [lineCount_eq]
        exact emplaces_nodup _ _ _ List.nodup_nil
      · rw [← Map.has_iff, Map.has, lineCount_eq, find_emplaces]
        rw [show Map.find ([] : Map Nat Nat) i = none from rfl, Option.none_or, List.findSome?_isSome_iff]
        simp only [List.mem_filter, List.mem_map, decide_eq_true_eq]
        constructor
        · rintro ⟨n, ⟨h1, h2⟩, h3⟩
          exact ⟨n, ⟨h1, h3⟩, h2⟩
        · rintro ⟨n, ⟨h1, h3⟩, h2⟩
          exact ⟨n, ⟨h1, h2⟩, h3⟩
    · refine length_keys (bumps_nodup _ [] List.nodup_nil) hbc fun i => ?_
      rw [← Map.has_iff, Map.has]
      have := hf i
      rw [show Map.find (List.foldl bump [] (maps.flatMap (·.2))) i = (branchCount maps).find i from rfl, this]
      simp only [List.mem_filter, List.mem_map, decide_eq_true_eq]
      constructor
      · intro h
        have hp : 0 < times runs i := by
          split at h
          · assumption
          · cases h
        obtain ⟨r, hr⟩ := List.length_pos_iff_exists_mem.1 hp
        obtain ⟨hr1, hr2⟩ := List.mem_filter.1 hr
        obtain ⟨b, hb1, hb2, rfl⟩ := F.entered r hr1 i (of_decide_eq_true hr2)
        exact ⟨b, ⟨mem_totalBranches.2 ⟨hb1, hb2⟩, hp⟩, rfl⟩
      · rintro ⟨n, ⟨_, hp⟩, rfl⟩
        rw [if_pos hp]
        rfl

/-! ## The report -/

theorem coverage_sorted (D : Design) : Sorted2 (coverage D) :=
  covs_sorted _ ⟨List.Pairwise.nil, by simp⟩

/-- The files and lines of the report are those of the statements. -/
theorem coverage_iff (P : Proper D maps) (F : Fits D runs maps) {fn : Txt} {ln : Nat} {n : Node} :
    (∃ c, (fn, c) ∈ coverage D ∧ (ln, n) ∈ c) ↔ Reported D n ∧ n.dbg = some (fn, ln) := by
  rw [← find2_iff (coverage_sorted D), coverage, reported_iff]
  constructor
  · intro h
    rcases covs_from _ _ _ _ _ h with h | h
    · exact h
    · cases h
  · rintro ⟨h1, h2⟩
    refine covs_found _ _ n fn ln h1 h2 fun x hx hd => ?_
    have ha := reported_iff.2 hx
    have hb := reported_iff.2 h1
    exact same_node P ha.mem hb.mem (F.apart x n ha hb (hd.trans h2.symm))

theorem coverage_file (P : Proper D maps) (F : Fits D runs maps) {fn : Txt}
    (h : fn ∈ (coverage D).map (·.1)) : ∃ n ln, Reported D n ∧ n.dbg = some (fn, ln) := by
  obtain ⟨⟨f, c⟩, he, rfl⟩ := List.mem_map.1 h
  have hne := covs_nonempty (totalLines D ++ totalBranches D) [] (by simp) _ he
  obtain ⟨⟨ln, n⟩, hx⟩ := List.exists_mem_of_ne_nil _ hne
  exact ⟨n, ln, (coverage_iff P F).1 ⟨c, he, hx⟩⟩

theorem root_right (P : Proper D maps) (F : Fits D runs maps) :
    ∃ root, longestPath ((coverage D).map (·.1)) = .ok root ∧ (root = [] ∨ ∃ t, root = '/' :: t) ∧
      ∀ fn ∈ (coverage D).map (·.1), ∃ f, fn = root ++ '/' :: f ∧ afterRoot root fn = .ok f := by
  have hs := (coverage_sorted D).1
  have hfile := fun fn => coverage_file (fn := fn) P F
  revert hfile
  generalize hm : (coverage D).map (·.1) = files
  have hsf : files.Pairwise fun a b => ltTxt a b = true := by
    rw [← hm, List.pairwise_map]; exact hs
  intro hfile
  cases files with
  | nil => exact ⟨[], rfl, .inl rfl, by simp⟩
  | cons c rest =>
    obtain ⟨h1, _⟩ := List.pairwise_cons.1 hsf
    obtain ⟨nc, lc, hc, hcd⟩ := hfile c List.mem_cons_self
    obtain ⟨root, hr, hall, hroot⟩ := root_ok h1 (F.absolute nc c lc hc hcd) (by
      intro d hd q r x s hq hx
      obtain ⟨nd, ld, hd', hdd⟩ := hfile d (List.mem_cons_of_mem _ hd)
      exact F.separate nc nd c d lc ld hc hd' hcd hdd q r x s hq hx)
    refine ⟨root, hr, hroot, fun fn hfn => ?_⟩
    obtain ⟨f, hf⟩ := hall fn hfn
    obtain ⟨n, ln, hn, hnd⟩ := hfile fn hfn
    refine ⟨f, hf, ?_⟩
    rw [hf]
    exact afterRoot_ok (hf ▸ F.parts n fn ln hn hnd)

theorem classList_ok (D : Design) (maps : Map Nat (List Nat)) (root : Txt) :
    ∀ (m : Map Txt (Map Nat Node)), (∀ e ∈ m, ∃ f, afterRoot root e.1 = .ok f) →
    ∃ cs, classList D maps root m = .ok cs ∧ ∀ c, c ∈ cs ↔ ∃ e ∈ m, ∃ f, afterRoot root e.1 = .ok f ∧
      ∃ x ∈ classesOf e.2, c = ⟨x.1, f, x.2.map fun l => (l.1, hitsOf D maps l.2)⟩
  | [], _ => ⟨[], rfl, by simp⟩
  | (fn, st) :: m, h => by
    obtain ⟨f, hf⟩ := h _ List.mem_cons_self
    obtain ⟨cs, h1, h2⟩ := classList_ok D maps root m fun e he => h e (List.mem_cons_of_mem _ he)
    refine ⟨_, by rw [classList, hf, Res.ok_bind, h1, Res.ok_bind], fun c => ?_⟩
    rw [List.mem_append, h2, List.mem_map]
    constructor
    · rintro (⟨x, hx, rfl⟩ | ⟨e, he, hr⟩)
      · exact ⟨_, List.mem_cons_self, f, hf, x, hx, rfl⟩
      · exact ⟨e, List.mem_cons_of_mem _ he, hr⟩
    · rintro ⟨e, he, f', hf', x, hx, rfl⟩
      rcases List.mem_cons.1 he with rfl | he
      · rw [hf] at hf'
        cases hf'
        exact .inl ⟨x, hx, rfl⟩
      · exact .inr ⟨e, he, f', hf', x, hx, rfl⟩

/-- **The coverage report**, for designs and runs that fit: it is written, and read by an XML reader
it says for every assignment in a conditional block and for every such block, under the file and the
line the debug information gives, in how many runs it was executed; it has no other lines; and its
totals are the numbers of statements and of executed ones. -/
theorem report_partial (X : Texts) (D : Design) (runs : List (List Nat)) (maps : Map Nat (List Nat))
    (P : Proper D maps) (F : Fits D runs maps) : ReportClaim X D runs maps := by
  obtain ⟨root, hr, hroot, hfiles⟩ := root_right P F
  obtain ⟨cs, hcs, hmem⟩ := classList_ok D maps root (coverage D) fun e he => by
    obtain ⟨f, _, h⟩ := hfiles e.1 (List.mem_map_of_mem he)
    exact ⟨f, h⟩
  obtain ⟨w, hw, hread⟩ := written X (totals D maps) root cs
  refine ⟨w.out, ?_, ?_, ?_⟩
  · rw [report, hr, Res.ok_bind, hcs, Res.ok_bind, hw]
    rfl
  · rw [hread, LinesRight, read_rows, read_source X _ root cs hroot]
    constructor
    · intro n fn ln hn hd
      obtain ⟨st, h1, h2⟩ := (coverage_iff P F).2 ⟨hn, hd⟩
      obtain ⟨f, hf, ha⟩ := hfiles fn (List.mem_map_of_mem (f := (·.1)) h1)
      obtain ⟨cc, h3, h4⟩ := (classesOf_iff ((coverage_sorted D).2 _ h1)).2 ⟨h2, rfl⟩
      refine ⟨f, hitsOf D maps n, hf.symm, hitsOf_ran P F hn, ?_⟩
      rw [List.mem_flatMap]
      refine ⟨_, (hmem _).2 ⟨_, h1, f, ha, _, h3, rfl⟩, ?_⟩
      rw [List.map_map, List.mem_map]
      exact ⟨_, h4, rfl⟩
    · intro row hrow
      obtain ⟨c, hc, hrow⟩ := List.mem_flatMap.1 hrow
      obtain ⟨e, he, f, hf, x, hx, rfl⟩ := (hmem c).1 hc
      rw [List.map_map, List.mem_map] at hrow
      obtain ⟨⟨ln, n⟩, hl, rfl⟩ := hrow
      obtain ⟨h1, h2⟩ := (classesOf_iff ((coverage_sorted D).2 _ he)).1 ⟨x.2, hx, hl⟩
      obtain ⟨hn, hd⟩ := (coverage_iff P F).1 ⟨e.2, he, h1⟩
      obtain ⟨f', hf', ha⟩ := hfiles e.1 (List.mem_map_of_mem he)
      rw [hf] at ha
      cases ha
      exact ⟨n, e.1, ln, f, hitsOf D maps n, hn, hd, hf'.symm, hitsOf_ran P F hn, by
        simp [rowOf, h2]⟩
  · obtain ⟨ls, bs, lc, bc, h1, h2, h3, h4, h5⟩ := totals_right P F
    refine ⟨ls, bs, lc, bc, h1, h2, h3, h4, ?_⟩
    rw [hread, read_totals, h5]

end

/-! ## The hypotheses are met -/

theorem no_double_of : ∀ (f : Txt), (f.zip f.tail).all (fun p => !(p.1 == '/' && p.2 == '/')) = true →
    ∀ q r, f ≠ q ++ '/' :: '/' :: r
  | f, h, q, r, e => by
    subst e
    rw [List.all_eq_true] at h
    have hm : ('/', '/') ∈ (q ++ '/' :: '/' :: r).zip (q ++ '/' :: '/' :: r).tail := by
      clear h
      induction q with
      | nil => simp
      | cons a q ih =>
        cases q with
        | nil => simp
        | cons b q => exact List.mem_cons_of_mem _ ih
    have := h _ hm
    simp at this

/-- A decidable form of `separate`. -/
def apartTxt : Txt → Txt → Bool
  | a :: s, b :: t => (a != '/' || decide (b.toNat ≤ '/'.toNat)) && (a != b || apartTxt s t)
  | _, _ => true

theorem apartTxt_ok {fa fb : Txt} (h : apartTxt fa fb = true) (q r : Txt) (x : Char) (s : Txt)
    (h1 : fa = q ++ '/' :: r) (h2 : fb = q ++ x :: s) : x.toNat ≤ '/'.toNat := by
  subst h1 h2
  induction q with
  | nil =>
    simp only [List.nil_append, apartTxt, Bool.and_eq_true] at h
    simpa using h.1
  | cons c q ih =>
    simp only [List.cons_append, apartTxt, Bool.and_eq_true] at h
    exact ih (by simpa using h.2)

def fileA : Txt := ['/', 'w', '/', 'a', '.', 'p', 'y']
def fileB : Txt := ['/', 'w', '/', 'b', '.', 'p', 'y']

/-- Two files, each with a block and an assignment in it. -/
def demo : Design :=
  { assigns := [⟨1, some (fileA, 4), ['g'], true, [10, 20]⟩, ⟨2, some (fileB, 8), ['h'], true, [11, 20]⟩,
      ⟨3, some (fileB, 9), ['h'], false, [20]⟩]
    blocks := [⟨11, some (fileB, 7), ['h'], false, [20]⟩, ⟨10, some (fileA, 3), ['g'], false, [20]⟩] }

def demoRuns : List (List Nat) := [[10, 11], [10]]
def demoMaps : Map Nat (List Nat) := [(1, [10]), (0, [10, 11])]

def demoTexts : Texts := ⟨fun a b => printNat 10 a ++ '/' :: printNat 10 b, ['0'], ['1'], ['9']⟩

theorem demo_nodes {n : Node} (h : Reported demo n) : n ∈ totalLines demo ++ totalBranches demo :=
  reported_iff.1 h

theorem demo_files {n : Node} {fn : Txt} {ln : Nat} (h : Reported demo n) (hd : n.dbg = some (fn, ln)) :
    fn = fileA ∨ fn = fileB := by
  have := demo_nodes h
  have e : totalLines demo ++ totalBranches demo = [⟨1, some (fileA, 4), ['g'], true, [10, 20]⟩,
    ⟨2, some (fileB, 8), ['h'], true, [11, 20]⟩, ⟨11, some (fileB, 7), ['h'], false, [20]⟩,
    ⟨10, some (fileA, 3), ['g'], false, [20]⟩] := by decide
  rw [e] at this
  simp only [List.mem_cons, List.not_mem_nil, or_false] at this
  rcases this with rfl | rfl | rfl | rfl <;> cases hd <;> simp

theorem demo_fits : Proper demo demoMaps ∧ Fits demo demoRuns demoMaps := by
  refine ⟨⟨by decide, by decide⟩, ⟨?_, ?_, ?_, ?_, ?_, ?_, ?_⟩⟩
  · exact List.Perm.swap _ _ _
  · intro a b ha hb
    have key : ∀ a ∈ totalLines demo ++ totalBranches demo, ∀ b ∈ totalLines demo ++ totalBranches demo,
        a.dbg = b.dbg → a.id = b.id := by decide
    exact key a (demo_nodes ha) b (demo_nodes hb)
  · decide
  · decide
  · intro n fn ln h hd
    rcases demo_files h hd with rfl | rfl <;> exact ⟨_, rfl⟩
  · intro n fn ln h hd
    rcases demo_files h hd with rfl | rfl <;> exact no_double_of _ (by decide)
  · intro a b fa fb la lb ha hb hda hdb
    rcases demo_files ha hda with rfl | rfl <;> rcases demo_files hb hdb with rfl | rfl <;>
      exact apartTxt_ok (by decide)

/-- What a reader of the report gets out of it. -/
def seen {α : Type} (D : Design) (maps : Map Nat (List Nat)) (f : List Ev → α) : Option α :=
  match report demoTexts D maps with
  | .ok o => some (f (read false [] o))
  | _ => none

theorem seen_ok {α : Type} {D : Design} {maps : Map Nat (List Nat)} {f : List Ev → α} {a : α} {o : Txt}
    (h : seen D maps f = some a) (ho : report demoTexts D maps = .ok o) : f (read false [] o) = a := by
  unfold seen at h
  rw [ho] at h
  exact Option.some.inj h

example : ReportClaim demoTexts demo demoRuns demoMaps :=
  report_partial _ _ _ _ demo_fits.1 demo_fits.2

example : seen demo demoMaps sourceOf = some ['/', 'w'] := by decide +kernel

/-! ## The claim is false without them -/

/-- **A wrong directory**: `/a` is taken for the common directory of `/a/y` and `/ab/x`. -/
def prefixDesign : Design :=
  { assigns := []
    blocks := [⟨1, some (['/', 'a', '/', 'y'], 1), ['g'], false, []⟩, ⟨2, some (['/', 'a', 'b', '/', 'x'], 1), ['g'], false, []⟩] }

theorem prefix_wrong : Proper prefixDesign [(0, [1])] ∧
    seen prefixDesign [(0, [1])] sourceOf = some ['/', 'a'] ∧
    seen prefixDesign [(0, [1])] (rows none none) = some [⟨some ['g'], some ['y'], some 1, some 1⟩,
      ⟨some ['g'], some ['b', '/', 'x'], some 1, some 0⟩] ∧
    ¬ ReportClaim demoTexts prefixDesign [[1]] [(0, [1])] := by
  have h1 : seen prefixDesign [(0, [1])] sourceOf = some ['/', 'a'] := by decide +kernel
  refine ⟨⟨by decide, by decide⟩, h1, by decide +kernel, ?_⟩
  rintro ⟨o, ho, hl, _⟩
  obtain ⟨f, k, hf, _⟩ := hl.1 ⟨2, some (['/', 'a', 'b', '/', 'x'], 1), ['g'], false, []⟩ _ 1
    ⟨by decide, .inr (by decide)⟩ rfl
  rw [seen_ok h1 ho] at hf
  simp at hf

/-- **A relative file name is taken for a directory.** -/
def relativeDesign : Design := { assigns := [], blocks := [⟨1, some (['a', '.', 'p', 'y'], 1), ['g'], false, []⟩] }

theorem relative_wrong : Proper relativeDesign [(0, [1])] ∧
    seen relativeDesign [(0, [1])] sourceOf = some ['a', '.', 'p', 'y'] ∧
    seen relativeDesign [(0, [1])] (rows none none) = some [⟨some ['g'], some [], some 1, some 1⟩] ∧
    ¬ ReportClaim demoTexts relativeDesign [[1]] [(0, [1])] := by
  have h1 : seen relativeDesign [(0, [1])] sourceOf = some ['a', '.', 'p', 'y'] := by decide +kernel
  refine ⟨⟨by decide, by decide⟩, h1, by decide +kernel, ?_⟩
  rintro ⟨o, ho, hl, _⟩
  obtain ⟨f, k, hf, _⟩ := hl.1 ⟨1, some (['a', '.', 'p', 'y'], 1), ['g'], false, []⟩ _ 1
    ⟨by decide, .inr (by decide)⟩ rfl
  rw [seen_ok h1 ho] at hf
  simp at hf

/-- **Reading past the end of a file name**: nothing in common, and the second name is shorter. -/
theorem relative_ub : report demoTexts { assigns := [], blocks := [⟨1, some (['a', '/', 'x'], 1), ['g'], false, []⟩,
    ⟨2, some (['b'], 1), ['g'], false, []⟩] } [] = .ub := by decide +kernel

/-- **One line, two statements**: only the one put last is shown. -/
def sharedDesign : Design :=
  { assigns := [⟨1, some (fileA, 4), ['g'], true, [10]⟩, ⟨2, some (fileA, 4), ['g'], true, [11]⟩]
    blocks := [⟨10, some (fileA, 2), ['g'], false, []⟩, ⟨11, some (fileA, 3), ['g'], false, []⟩] }

theorem shared_line_wrong : Proper sharedDesign [(0, [10])] ∧
    seen sharedDesign [(0, [10])] (rows none none) = some [⟨some ['g'], some ['a', '.', 'p', 'y'], some 2, some 1⟩,
      ⟨some ['g'], some ['a', '.', 'p', 'y'], some 3, some 0⟩, ⟨some ['g'], some ['a', '.', 'p', 'y'], some 4, some 0⟩] ∧
    ¬ ReportClaim demoTexts sharedDesign [[10]] [(0, [10])] := by
  have h1 : seen sharedDesign [(0, [10])] (rows none none) = some [⟨some ['g'], some ['a', '.', 'p', 'y'], some 2, some 1⟩,
      ⟨some ['g'], some ['a', '.', 'p', 'y'], some 3, some 0⟩, ⟨some ['g'], some ['a', '.', 'p', 'y'], some 4, some 0⟩] := by decide +kernel
  have P : Proper sharedDesign [(0, [10])] := ⟨by decide, by decide⟩
  refine ⟨P, h1, ?_⟩
  rintro ⟨o, ho, hl, _⟩
  obtain ⟨f, k, _, hk, hrow⟩ := hl.1 ⟨1, some (fileA, 4), ['g'], true, [10]⟩ _ 4
    ⟨by decide, .inl (by decide)⟩ rfl
  rw [ranIn_assign P (by decide) (b := 10) rfl] at hk
  subst hk
  rw [seen_ok h1 ho] at hrow
  simp [times] at hrow

/-- **A block without debug information**: what stands in it is taken to run whenever the block around it
does, and it is counted as covered though it is not among the blocks. -/
def bareDesign : Design :=
  { assigns := [⟨1, some (fileA, 4), ['g'], true, [11, 10]⟩]
    blocks := [⟨10, some (fileA, 2), ['g'], false, []⟩, ⟨11, none, ['g'], false, [10]⟩] }

theorem bare_block_wrong : Proper bareDesign [(0, [10])] ∧
    seen bareDesign [(0, [10])] (rows none none) = some [⟨some ['g'], some ['a', '.', 'p', 'y'], some 2, some 1⟩,
      ⟨some ['g'], some ['a', '.', 'p', 'y'], some 4, some 1⟩] ∧
    seen bareDesign [(0, [10, 11])] totalsOf = some [some 1, some 1, some 2, some 1] ∧
    ¬ ReportClaim demoTexts bareDesign [[10]] [(0, [10])] := by
  have h1 : seen bareDesign [(0, [10])] (rows none none) = some [⟨some ['g'], some ['a', '.', 'p', 'y'], some 2, some 1⟩,
      ⟨some ['g'], some ['a', '.', 'p', 'y'], some 4, some 1⟩] := by decide +kernel
  have P : Proper bareDesign [(0, [10])] := ⟨by decide, by decide⟩
  refine ⟨P, h1, by decide +kernel, ?_⟩
  rintro ⟨o, ho, hl, _⟩
  obtain ⟨f, k, _, hk, hrow⟩ := hl.1 ⟨1, some (fileA, 4), ['g'], true, [11, 10]⟩ _ 4
    ⟨by decide, .inl (by decide)⟩ rfl
  rw [ranIn_assign P (by decide) (b := 11) rfl] at hk
  subst hk
  rw [seen_ok h1 ho] at hrow
  simp [times] at hrow

/-- **Runs that have not been analysed are not in the report**: it uses the coverage computed so far. -/
theorem uncomputed_wrong : Proper relativeDesign [] ∧
    seen relativeDesign [] (rows none none) = some [⟨some ['g'], some [], some 1, some 0⟩] ∧
    ¬ ReportClaim demoTexts relativeDesign [[1]] [] := by
  have h1 : seen relativeDesign [] (rows none none) = some [⟨some ['g'], some [], some 1, some 0⟩] := by
    decide +kernel
  have P : Proper relativeDesign [] := ⟨by decide, by decide⟩
  refine ⟨P, h1, ?_⟩
  rintro ⟨o, ho, hl, _⟩
  obtain ⟨f, k, _, hk, hrow⟩ := hl.1 ⟨1, some (['a', '.', 'p', 'y'], 1), ['g'], false, []⟩ _ 1
    ⟨by decide, .inr (by decide)⟩ rfl
  rw [ranIn_block P (by decide)] at hk
  subst hk
  rw [seen_ok h1 ho] at hrow
  simp [times] at hrow

theorem not_ReportClaim : ¬ ∀ X D runs maps, Proper D maps → ReportClaim X D runs maps :=
  fun h => prefix_wrong.2.2.2 (h _ _ _ _ prefix_wrong.1)

end Kratos.Report
