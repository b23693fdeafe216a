import Verif.Util.Map

/-!
# C112: a written Verilog file holds every definition and its table points at the right lines

`output_verilog` (kratos/passes.py:203-250) writes the definitions and modules of a design to a file, with a table from lines of
the file to lines of the user's program, and shifts the recorded line numbers (`fix_verilog_ln`, see `Verif/Print/Lines.lean`).
`verilog(…, filename=…)` calls it (kratos/passes.py:187-192); `clear_context` is kratos/passes.py:253-255.

Simplified: texts are lists of characters; the JSON of the table is the table itself.
-/

namespace Kratos.OutFile

abbrev Str := List Char
abbrev Name := List Char

/-! ## Model -/

variable {I : Type}

/-- `s.split("\n")`. -/
def split : Str → List Str
  | [] => [[]]
  | c :: s =>
    if c = '\n' then [] :: split s
    else match split s with
      | [] => [[c]]
      | l :: ls => (c :: l) :: ls

/-- One call of `output_verilog`: the file, whether definitions are tracked, the four dictionaries of definitions one after the
other, the dictionary of modules, the table of each module (line of the module to information), and the generators the context
has under a name. -/
structure Call (I : Type) where
  file : Name
  track : Bool
  defs : List (Name × Str)
  mods : Map Name Str
  info : Name → Nat → Option I
  gens : Name → List Nat

/-- The local state of the function, and `__generated_definitions`. -/
structure W (I : Type) where
  out : Str
  ln : Nat
  dbg : List (Nat × I)
  moved : List (Nat × Nat)
  seen : List Name

/-- The loop over the lines (kratos/passes.py:214-217 without a table, 237-243 with one).  The keys of `debug_info` grow, so that
a new entry is always at the end. -/
def putLines (info : Nat → Option I) : List Str → Nat → W I → W I
  | [], _, w => w
  | l :: ls, i, w => putLines info ls (i + 1)
      { w with
        out := w.out ++ l ++ ['\n']
        ln := w.ln + 1
        dbg := match info (i + 1) with | some x => w.dbg ++ [(w.ln, x)] | none => w.dbg }

/-- One definition (kratos/passes.py:209-219). -/
def putDef (track : Bool) (w : W I) (d : Name × Str) : W I :=
  if track && w.seen.contains d.1 then w
  else
    let w := putLines (fun _ => none) (split d.2) 0 w
    if track then { w with seen := w.seen ++ [d.1] } else w

/-- One module (kratos/passes.py:223-245). -/
def putMod (c : Call I) (w : W I) (n : Name) : W I :=
  if c.track && w.seen.contains n then w
  else
    match Map.find c.mods n with
    | none => w
    | some src =>
      let w := { w with moved := w.moved ++ (c.gens n).map fun g => (g, w.ln - 1) }
      let w := putLines (c.info n) (split src) 0 w
      if c.track then { w with seen := w.seen ++ [n] } else w

/-- Comparison of strings by code points. -/
def lexLe : Name → Name → Bool
  | [], _ => true
  | _ :: _, [] => false
  | a :: s, b :: t => decide (a.toNat < b.toNat) || (decide (a = b) && lexLe s t)

def insertName (n : Name) : List Name → List Name
  | [] => [n]
  | m :: ms => if lexLe n m then n :: m :: ms else m :: insertName n ms

/-- `mod_src_names.sort()` (kratos/passes.py:221-222); the names are distinct, so that every algorithm gives this list. -/
def sortNames (l : List Name) : List Name := l.foldr insertName []

/-- `output_verilog` up to the end of the first `with` (kratos/passes.py:205-245). -/
def emit (c : Call I) (seen : List Name) : W I :=
  (sortNames c.mods.keys).foldl (putMod c) (c.defs.foldl (putDef c.track) ⟨[], 1, [], [], seen⟩)

/-- The files, the tables beside them, the shifts of line numbers, and the module's set. -/
structure World (I : Type) where
  files : Map Name Str
  tables : Map Name (List (Nat × I))
  moved : List (Nat × Nat)
  seen : List Name

inductive Op (I : Type) where
  | write (c : Call I)
  | clear

/-- A call: the file is truncated and written; the table is only written if it is not empty (kratos/passes.py:247-250). -/
def step (w : World I) : Op I → World I
  | .write c =>
    { files := w.files.put c.file (emit c w.seen).out
      tables := if (emit c w.seen).dbg.length > 0 then w.tables.put c.file (emit c w.seen).dbg else w.tables
      moved := w.moved ++ (emit c w.seen).moved
      seen := (emit c w.seen).seen }
  | .clear => { w with seen := [] }

def start : World I := ⟨[], [], [], []⟩

def run (w : World I) (ops : List (Op I)) : World I := ops.foldl step w

/-! ## Specification -/

/-- Something to be written: a definition or a module. -/
structure Piece where
  name : Name
  text : Str
  isMod : Bool
  deriving DecidableEq

/-- Order of names: a proper prefix, or a smaller character at the first difference. -/
inductive Before : Name → Name → Prop
  | pre (a b c) : Before a (a ++ b :: c)
  | diff (a x b y c) : x.toNat < y.toNat → Before (a ++ x :: b) (a ++ y :: c)

/-- What the design of the call consists of: the definitions in order, then the modules ordered by name. -/
def Wanted (c : Call I) (ps : List Piece) : Prop :=
  ∃ ms : List (Name × Str), ms.Perm c.mods ∧ ms.Pairwise (fun a b => Before a.1 b.1) ∧
    ps = c.defs.map (fun d => ⟨d.1, d.2, false⟩) ++ ms.map (fun d => ⟨d.1, d.2, true⟩)

/-- Pieces one after the other, each ended by a line break. -/
def render : List Piece → Str
  | [] => []
  | p :: ps => p.text ++ '\n' :: render ps

def breaks (s : Str) : Nat := s.count '\n'

/-- Line `n` of the text, counted from 1, is `l`. -/
def IsLine (text : Str) (n : Nat) (l : Str) : Prop :=
  ∃ pre post, text = pre ++ (l ++ '\n' :: post) ∧ '\n' ∉ l ∧ n = breaks pre + 1 ∧ (pre = [] ∨ ∃ q, pre = q ++ ['\n'])

/-- The file with its table and shifts is right for the pieces: the text is theirs, an entry of the table is that of a line
of a module, at the place of that line in the file, and every generator of a written module is shifted by the lines before it. -/
structure Right (c : Call I) (ps : List Piece) (out : Str) (dbg : List (Nat × I)) (moved : List (Nat × Nat)) : Prop where
  text : out = render ps
  table : ∀ n i, (n, i) ∈ dbg ↔ ∃ a p b k l, ps = a ++ p :: b ∧ p.isMod = true ∧ IsLine (p.text ++ ['\n']) k l ∧
    c.info p.name k = some i ∧ n = breaks (render a) + k
  shift : ∀ g k, (g, k) ∈ moved ↔ ∃ a p b, ps = a ++ p :: b ∧ p.isMod = true ∧ g ∈ c.gens p.name ∧ k = breaks (render a)

/-- The pieces to be written if the names `seen` have been written before: each name once. -/
structure Fresh (seen : List Name) (all ps : List Piece) : Prop where
  some_of : ps.Sublist all
  once : (ps.map (·.name)).Nodup
  new : ∀ p ∈ ps, p.name ∉ seen
  covers : ∀ p ∈ all, p.name ∈ seen ∨ ∃ q ∈ ps, q.name = p.name

/-- The piece is in one of the files. -/
def Present (w : World I) (p : Piece) : Prop :=
  ∃ f a b, w.files.find f = some (render a ++ (p.text ++ '\n' :: render b))

/-- The table beside a file belongs to the file. -/
def TablesMatch (ops : List (Op I)) (w : World I) : Prop :=
  ∀ f tab, w.tables.find f = some tab → ∃ c, Op.write c ∈ ops ∧ c.file = f ∧ ∃ txt, w.files.find f = some txt ∧
    ∀ n i, (n, i) ∈ tab → ∃ m src k l, (m, src) ∈ c.mods ∧ IsLine (src ++ ['\n']) k l ∧ c.info m k = some i ∧ IsLine txt n l

/-- C112 in full: whatever calls were made, every definition and module of every call is in a file, and the tables belong to the
files. -/
def FileClaim : Prop :=
  ∀ (I : Type) (ops : List (Op I)), (∀ c, Op.write c ∈ ops → c.mods.keys.Nodup) →
    (∀ c, Op.write c ∈ ops → ∀ ps, Wanted c ps → ∀ p ∈ ps, Present (run start ops) p) ∧ TablesMatch ops (run start ops)

/-! ## Lines -/

theorem split_join : ∀ s : Str, (split s).flatMap (fun l => l ++ ['\n']) = s ++ ['\n']
  | [] => rfl
  | c :: s => by
    have ih := split_join s
    unfold split
    split
    · next h => subst h; rw [List.flatMap_cons, ih]; rfl
    · split
      · next h => rw [h] at ih; simp at ih
      · next h =>
        rw [h, List.flatMap_cons] at ih
        rw [List.flatMap_cons]
        show c :: (_ ++ _) ++ _ = _
        rw [List.cons_append, ih]
        rfl

theorem split_clean : ∀ s : Str, ∀ l ∈ split s, '\n' ∉ l
  | [], l, h => by simp [split] at h; subst h; simp
  | c :: s, l, h => by
    have ih := split_clean s
    unfold split at h
    split at h
    · rcases List.mem_cons.1 h with rfl | h
      · simp
      · exact ih l h
    · next hc =>
      split at h
      · simp at h; subst h; simp; exact fun e => hc e.symm
      · next hs =>
        rcases List.mem_cons.1 h with rfl | h
        · rw [List.mem_cons, not_or]
          exact ⟨fun e => hc e.symm, ih _ (by rw [hs]; exact List.mem_cons_self)⟩
        · exact ih l (by rw [hs]; exact List.mem_cons_of_mem _ h)

theorem breaks_append (a b : Str) : breaks (a ++ b) = breaks a + breaks b := by simp [breaks]

theorem breaks_clean {l : Str} (h : '\n' ∉ l) : breaks l = 0 := List.count_eq_zero.2 h

theorem breaks_lines : ∀ (ls : List Str), (∀ l ∈ ls, '\n' ∉ l) → breaks (ls.flatMap fun l => l ++ ['\n']) = ls.length
  | [], _ => rfl
  | l :: ls, h => by
    rw [List.flatMap_cons, breaks_append, breaks_append, breaks_clean (h l List.mem_cons_self),
      breaks_lines ls fun l hl => h l (List.mem_cons_of_mem _ hl), List.length_cons]
    show 0 + 1 + _ = _
    omega

def Bol (pre : Str) : Prop := pre = [] ∨ ∃ q, pre = q ++ ['\n']

theorem bol_lines (ls : List Str) : Bol (ls.flatMap fun l => l ++ ['\n']) := by
  rcases List.eq_nil_or_concat ls with rfl | ⟨ls', l, rfl⟩
  · exact Or.inl rfl
  · right
    rw [List.concat_eq_append, List.flatMap_append]
    exact ⟨ls'.flatMap (fun l => l ++ ['\n']) ++ l, by simp⟩

theorem bol_append {a b : Str} (ha : Bol a) (hb : Bol b) : Bol (a ++ b) := by
  rcases hb with rfl | ⟨q, rfl⟩
  · rw [List.append_nil]; exact ha
  · exact Or.inr ⟨a ++ q, by simp⟩

/-- Two ways to cut a text at its first line break. -/
theorem cut_unique : ∀ (l l' r r' : Str), '\n' ∉ l → '\n' ∉ l' → l ++ '\n' :: r = l' ++ '\n' :: r' → l = l' ∧ r = r'
  | [], [], r, r', _, _, h => by simp at h; exact ⟨rfl, h⟩
  | [], c :: l', r, r', _, h2, h => by
    simp at h
    exact absurd (by rw [← h.1]; exact List.mem_cons_self) h2
  | c :: l, [], r, r', h1, _, h => by
    simp at h
    exact absurd (by rw [h.1]; exact List.mem_cons_self) h1
  | c :: l, c' :: l', r, r', h1, h2, h => by
    simp only [List.cons_append, List.cons.injEq] at h
    obtain ⟨a, b⟩ := cut_unique l l' r r' (fun x => h1 (List.mem_cons_of_mem _ x)) (fun x => h2 (List.mem_cons_of_mem _ x)) h.2
    exact ⟨by rw [h.1, a], b⟩

theorem isLine_cons {l : Str} {rest : Str} (hl : '\n' ∉ l) (n : Nat) (x : Str) :
    IsLine (l ++ '\n' :: rest) n x ↔ (n = 1 ∧ x = l) ∨ ∃ m, n = m + 1 ∧ IsLine rest m x := by
  constructor
  · rintro ⟨pre, post, ht, hx, hn, hb⟩
    rcases hb with rfl | ⟨q, rfl⟩
    · left
      rw [List.nil_append] at ht
      obtain ⟨a, _⟩ := cut_unique _ _ _ _ hl hx ht
      exact ⟨by rw [hn]; rfl, a.symm⟩
    · right
      -- the first break of the text is in `q` or right after it
      have key : ∀ (q l : Str), '\n' ∉ l → l ++ '\n' :: rest = (q ++ ['\n']) ++ (x ++ '\n' :: post) →
          ∃ pre', rest = pre' ++ (x ++ '\n' :: post) ∧ breaks (q ++ ['\n']) = breaks pre' + 1 ∧ Bol pre' := by
        intro q
        induction q with
        | nil =>
          intro l hl h
          cases l with
          | nil =>
            simp at h
            exact ⟨[], h, rfl, Or.inl rfl⟩
          | cons c l =>
            simp at h
            exact absurd (by rw [h.1]; exact List.mem_cons_self) hl
        | cons c q ih =>
          intro l hl h
          cases l with
          | nil =>
            simp only [List.nil_append, List.cons_append, List.cons.injEq] at h
            refine ⟨q ++ ['\n'], by rw [h.2], ?_, Or.inr ⟨q, rfl⟩⟩
            rw [← h.1]
            simp [breaks]
          | cons c' l =>
            simp only [List.cons_append, List.cons.injEq] at h
            obtain ⟨pre', e1, e2, e3⟩ := ih l (fun y => hl (List.mem_cons_of_mem _ y)) h.2
            refine ⟨pre', e1, ?_, e3⟩
            have hc : c ≠ '\n' := fun e => hl (by rw [h.1, e]; exact List.mem_cons_self)
            rw [← e2]
            simp [breaks, hc]
      obtain ⟨pre', e1, e2, e3⟩ := key q l hl ht
      exact ⟨breaks pre' + 1, by omega, pre', post, e1, hx, rfl, e3⟩
  · rintro (⟨rfl, rfl⟩ | ⟨m, rfl, pre, post, ht, hx, hn, hb⟩)
    · exact ⟨[], rest, rfl, hl, rfl, Or.inl rfl⟩
    · refine ⟨l ++ '\n' :: pre, post, by rw [ht]; simp, hx, ?_, Or.inr ?_⟩
      · rw [hn, breaks_append, breaks_clean hl]
        simp [breaks]
      · rcases hb with rfl | ⟨q, rfl⟩
        · exact ⟨l, rfl⟩
        · exact ⟨l ++ '\n' :: q, by simp⟩

theorem isLine_nil (n : Nat) (x : Str) : ¬ IsLine [] n x := by
  rintro ⟨pre, post, ht, _⟩
  have := congrArg List.length ht
  simp at this

theorem isLine_lines : ∀ (ls : List Str), (∀ l ∈ ls, '\n' ∉ l) → ∀ n x,
    (IsLine (ls.flatMap fun l => l ++ ['\n']) n x ↔ ∃ k, n = k + 1 ∧ ls[k]? = some x)
  | [], _, n, x => by
    simp only [List.flatMap_nil, List.getElem?_nil]
    exact ⟨fun h => absurd h (isLine_nil n x), fun ⟨_, _, h⟩ => nomatch h⟩
  | l :: ls, h, n, x => by
    rw [List.flatMap_cons, List.append_assoc, List.singleton_append, isLine_cons (h l List.mem_cons_self)]
    constructor
    · rintro (⟨rfl, rfl⟩ | ⟨m, rfl, hm⟩)
      · exact ⟨0, rfl, rfl⟩
      · obtain ⟨k, rfl, hk⟩ := (isLine_lines ls (fun l hl => h l (List.mem_cons_of_mem _ hl)) m x).1 hm
        exact ⟨k + 1, rfl, hk⟩
    · rintro ⟨k, rfl, hk⟩
      cases k with
      | zero => simp at hk; exact Or.inl ⟨rfl, hk.symm⟩
      | succ k => exact Or.inr ⟨k + 1, rfl, (isLine_lines ls (fun l hl => h l (List.mem_cons_of_mem _ hl)) _ x).2 ⟨k, rfl, hk⟩⟩

theorem isLine_split (s : Str) (n : Nat) (x : Str) : IsLine (s ++ ['\n']) n x ↔ ∃ k, n = k + 1 ∧ (split s)[k]? = some x := by
  rw [← split_join s]
  exact isLine_lines _ (split_clean s) n x

/-- A line of a block is a line of the text around it. -/
theorem isLine_inside {pre : Str} (hb : Bol pre) {t post : Str} {n : Nat} {x : Str} (h : IsLine t n x) :
    IsLine (pre ++ (t ++ post)) (breaks pre + n) x := by
  obtain ⟨a, b, rfl, hx, rfl, hab⟩ := h
  refine ⟨pre ++ a, b ++ post, by simp, hx, by rw [breaks_append]; omega, ?_⟩
  exact bol_append hb hab

/-! ## The writer -/

theorem putLines_out (info : Nat → Option I) : ∀ (ls : List Str) (i : Nat) (w : W I),
    (putLines info ls i w).out = w.out ++ ls.flatMap (fun l => l ++ ['\n']) ∧ (putLines info ls i w).ln = w.ln + ls.length ∧
    (putLines info ls i w).moved = w.moved ∧ (putLines info ls i w).seen = w.seen ∧
    ∀ n x, (n, x) ∈ (putLines info ls i w).dbg ↔ (n, x) ∈ w.dbg ∨ ∃ k, k < ls.length ∧ n = w.ln + k ∧ info (i + k + 1) = some x
  | [], i, w => by simp [putLines]
  | l :: ls, i, w => by
    unfold putLines
    obtain ⟨h1, h2, h3, h4, h5⟩ := putLines_out info ls (i + 1)
      { w with
        out := w.out ++ l ++ ['\n']
        ln := w.ln + 1
        dbg := match info (i + 1) with | some x => w.dbg ++ [(w.ln, x)] | none => w.dbg }
    refine ⟨by rw [h1]; simp, by rw [h2, List.length_cons]; dsimp only; omega, h3, h4, ?_⟩
    intro n x
    rw [h5]
    have hd : ((n, x) ∈ (match info (i + 1) with | some x => w.dbg ++ [(w.ln, x)] | none => w.dbg)) ↔
        ((n, x) ∈ w.dbg ∨ (n = w.ln ∧ info (i + 1) = some x)) := by
      cases hi : info (i + 1) with
      | none => simp
      | some y =>
        simp only [List.mem_append, List.mem_singleton, Prod.mk.injEq, Option.some.injEq]
        exact or_congr Iff.rfl ⟨fun h => ⟨h.1, h.2.symm⟩, fun h => ⟨h.1, h.2.symm⟩⟩
    rw [hd, or_assoc]
    refine or_congr Iff.rfl ⟨?_, ?_⟩
    · rintro (⟨rfl, hx⟩ | ⟨k, hk, rfl, hx⟩)
      · exact ⟨0, by simp, rfl, hx⟩
      · refine ⟨k + 1, by simpa using hk, by dsimp only; omega, ?_⟩
        rw [← hx]
        congr 1
        omega
    · rintro ⟨k, hk, rfl, hx⟩
      cases k with
      | zero => exact Or.inl ⟨rfl, hx⟩
      | succ k =>
        refine Or.inr ⟨k, by simpa using hk, by dsimp only; omega, ?_⟩
        rw [← hx]
        congr 1
        omega

theorem render_append (a b : List Piece) : render (a ++ b) = render a ++ render b := by
  induction a with
  | nil => rfl
  | cons p a ih => simp [render, ih]

theorem bol_render (a : List Piece) : Bol (render a) := by
  rcases List.eq_nil_or_concat a with rfl | ⟨a', p, rfl⟩
  · exact Or.inl rfl
  · right
    rw [List.concat_eq_append, render_append]
    exact ⟨render a' ++ p.text, by simp [render]⟩

/-- The writer after the pieces `ps`. -/
structure Inv (c : Call I) (seen0 : List Name) (done ps : List Piece) (w : W I) : Prop where
  right : Right c ps w.out w.dbg w.moved
  ln : w.ln = breaks w.out + 1
  seen : w.seen = if c.track then seen0 ++ ps.map (·.name) else seen0
  fresh : if c.track then Fresh seen0 done ps else ps = done

/-- The places of a piece in a list that got one more at the end. -/
theorem snoc_split {α : Type} {ps : List α} {q : α} {P : List α → α → List α → Prop} (hP : ∀ a p b b', P a p b → P a p b') :
    (∃ a p b, ps ++ [q] = a ++ p :: b ∧ P a p b) ↔ (∃ a p b, ps = a ++ p :: b ∧ P a p b) ∨ P ps q [] := by
  constructor
  · rintro ⟨a, p, b, e, h⟩
    rcases List.eq_nil_or_concat b with rfl | ⟨b', x, rfl⟩
    · obtain ⟨e1, e2⟩ := List.append_inj' e rfl
      simp at e2
      subst e1 e2
      exact Or.inr h
    · left
      rw [List.concat_eq_append, ← List.cons_append, ← List.append_assoc] at e
      obtain ⟨e1, _⟩ := List.append_inj' e rfl
      exact ⟨a, p, b', e1, hP _ _ _ _ h⟩
  · rintro (⟨a, p, b, rfl, h⟩ | h)
    · exact ⟨a, p, b ++ [q], by simp, hP _ _ _ _ h⟩
    · exact ⟨ps, q, [], rfl, h⟩

/-- Writing one more piece. -/
theorem write_piece {c : Call I} {seen0 : List Name} {done ps : List Piece} {w : W I} (h : Inv c seen0 done ps w) (p : Piece)
    (info : Nat → Option I) (hi : if p.isMod = true then info = c.info p.name else info = fun _ => none)
    (moved : List (Nat × Nat)) (hm : moved = if p.isMod = true then w.moved ++ (c.gens p.name).map (fun g => (g, w.ln - 1)) else w.moved)
    (seen : List Name) (hs : seen = if c.track then w.seen ++ [p.name] else w.seen) (hn : c.track = true → p.name ∉ w.seen) :
    Inv c seen0 (done ++ [p]) (ps ++ [p]) { putLines info (split p.text) 0 { w with moved := moved } with seen := seen } := by
  obtain ⟨h1, h2, h3, h4, h5⟩ := putLines_out info (split p.text) 0 { w with moved := moved }
  dsimp only at h1 h2 h3 h4 h5
  have hout : (putLines info (split p.text) 0 { w with moved := moved }).out = w.out ++ (p.text ++ ['\n']) := by
    rw [h1, split_join]
  have hlen : (split p.text).length = breaks (p.text ++ ['\n']) := by
    rw [← split_join, breaks_lines _ (split_clean _)]
  refine ⟨⟨?_, ?_, ?_⟩, ?_, ?_, ?_⟩
  · dsimp only
    rw [hout, h.right.text, render_append]
    rfl
  · intro n i
    dsimp only
    rw [h5, h.right.table]
    have key : (∃ k, k < (split p.text).length ∧ n = w.ln + k ∧ info (0 + k + 1) = some i) ↔
        (∃ k l, p.isMod = true ∧ IsLine (p.text ++ ['\n']) k l ∧ c.info p.name k = some i ∧ n = breaks (render ps) + k) := by
      by_cases hp : p.isMod = true
      · rw [if_pos hp] at hi
        rw [hi, h.ln, ← h.right.text]
        constructor
        · rintro ⟨k, hk, rfl, hx⟩
          exact ⟨k + 1, (split p.text)[k], hp, (isLine_split _ _ _).2 ⟨k, rfl, List.getElem?_eq_getElem hk⟩,
            by rw [← hx]; congr 1; omega, by omega⟩
        · rintro ⟨k, l, _, hl, hx, rfl⟩
          obtain ⟨j, rfl, hj⟩ := (isLine_split _ _ _).1 hl
          obtain ⟨hlt, _⟩ := List.getElem?_eq_some_iff.1 hj
          exact ⟨j, hlt, by omega, by rw [← hx]; congr 1; omega⟩
      · rw [if_neg hp] at hi
        rw [hi]
        exact ⟨fun ⟨_, _, _, hx⟩ => (nomatch hx), fun ⟨_, _, hx, _⟩ => absurd hx hp⟩
    rw [key]
    have := snoc_split (ps := ps) (q := p) (P := fun a p b => ∃ k l, p.isMod = true ∧ IsLine (p.text ++ ['\n']) k l ∧
      c.info p.name k = some i ∧ n = breaks (render a) + k) (fun _ _ _ _ h => h)
    constructor
    · rintro (⟨a, q, b, k, l, e, hr⟩ | hr)
      · obtain ⟨a, q, b, e, k, l, hr⟩ := this.2 (Or.inl ⟨a, q, b, e, k, l, hr⟩)
        exact ⟨a, q, b, k, l, e, hr⟩
      · obtain ⟨a, q, b, e, k, l, hr⟩ := this.2 (Or.inr hr)
        exact ⟨a, q, b, k, l, e, hr⟩
    · rintro ⟨a, q, b, k, l, e, hr⟩
      rcases this.1 ⟨a, q, b, e, k, l, hr⟩ with ⟨a, q, b, e, k, l, hr⟩ | hr
      · exact Or.inl ⟨a, q, b, k, l, e, hr⟩
      · exact Or.inr hr
  · intro g k
    dsimp only
    rw [h3, snoc_split (ps := ps) (q := p) (P := fun (a : List Piece) (p : Piece) (_ : List Piece) => p.isMod = true ∧ g ∈ c.gens p.name ∧ k = breaks (render a)) (fun _ _ _ _ h => h),
      ← h.right.shift, hm]
    by_cases hp : p.isMod = true
    · rw [if_pos hp, List.mem_append]
      refine or_congr Iff.rfl ?_
      simp only [List.mem_map, Prod.mk.injEq]
      rw [h.ln, ← h.right.text]
      constructor
      · rintro ⟨g', hg, rfl, rfl⟩
        exact ⟨hp, hg, by omega⟩
      · rintro ⟨_, hg, rfl⟩
        exact ⟨g, hg, rfl, by omega⟩
    · rw [if_neg hp]
      exact ⟨Or.inl, fun h => h.elim id fun h => absurd h.1 hp⟩
  · dsimp only
    rw [h2, hout, breaks_append, hlen, h.ln]
    omega
  · dsimp only
    rw [hs, h.seen]
    cases c.track <;> simp
  · have hf := h.fresh
    cases ht : c.track with
    | false =>
      rw [ht] at hf
      simp only [Bool.false_eq_true, if_false] at hf ⊢
      rw [hf]
    | true =>
      rw [ht] at hf
      simp only [if_true] at hf ⊢
      have hne := hn ht
      rw [h.seen, ht, if_pos rfl, List.mem_append, not_or] at hne
      refine ⟨hf.some_of.append (List.Sublist.refl _), ?_, ?_, ?_⟩
      · rw [List.map_append]
        exact List.nodup_append.2 ⟨hf.once, by simp, fun a ha b hb e => by
          simp at hb
          rw [e, hb] at ha
          exact hne.2 ha⟩
      · intro q hq
        rcases List.mem_append.1 hq with hq | hq
        · exact hf.new q hq
        · simp at hq
          rw [hq]
          exact hne.1
      · intro q hq
        rcases List.mem_append.1 hq with hq | hq
        · exact (hf.covers q hq).imp id fun ⟨r, hr, e⟩ => ⟨r, List.mem_append_left _ hr, e⟩
        · simp at hq
          exact Or.inr ⟨p, by simp, by rw [hq]⟩

/-- Leaving out a piece whose name has been written. -/
theorem skip_piece {c : Call I} {seen0 : List Name} {done ps : List Piece} {w : W I} (h : Inv c seen0 done ps w) (p : Piece)
    (ht : c.track = true) (hs : p.name ∈ w.seen) : Inv c seen0 (done ++ [p]) ps w := by
  refine ⟨h.right, h.ln, h.seen, ?_⟩
  have hf := h.fresh
  rw [if_pos ht] at hf ⊢
  refine ⟨hf.some_of.trans (List.sublist_append_left _ _), hf.once, hf.new, ?_⟩
  intro q hq
  rcases List.mem_append.1 hq with hq | hq
  · exact hf.covers q hq
  · simp at hq
    rw [h.seen, if_pos ht, List.mem_append] at hs
    rw [hq]
    exact hs.imp id fun hs => by
      obtain ⟨r, hr, e⟩ := List.mem_map.1 hs
      exact ⟨r, hr, e⟩

theorem defs_inv {c : Call I} {seen0 : List Name} : ∀ (ds : List (Name × Str)) (done ps : List Piece) (w : W I), Inv c seen0 done ps w →
    ∃ ps', Inv c seen0 (done ++ ds.map fun d => ⟨d.1, d.2, false⟩) ps' (ds.foldl (putDef c.track) w)
  | [], done, ps, w, h => ⟨ps, by simpa using h⟩
  | d :: ds, done, ps, w, h => by
    rw [List.foldl_cons, List.map_cons, ← List.singleton_append, ← List.append_assoc]
    by_cases hb : (c.track && w.seen.contains d.1) = true
    · have e : putDef c.track w d = w := by unfold putDef; rw [if_pos hb]
      rw [e]
      rw [Bool.and_eq_true] at hb
      exact defs_inv ds _ ps w (skip_piece h ⟨d.1, d.2, false⟩ hb.1 (by simpa using hb.2))
    · have e : putDef c.track w d = { putLines (fun _ => none) (split d.2) 0 { w with moved := w.moved } with
          seen := if c.track then w.seen ++ [d.1] else w.seen } := by
        unfold putDef
        rw [if_neg hb]
        dsimp only
        have := (putLines_out (fun _ => none) (split d.2) 0 w).2.2.2.1
        cases c.track
        · rw [if_neg (by decide), if_neg (by decide)]
          conv => lhs; rw [← show { putLines (fun _ => none) (split d.2) 0 w with seen := w.seen } = putLines (fun _ => none) (split d.2) 0 w by
            rw [← this]]
        · rw [if_pos rfl, if_pos rfl, this]
      rw [e]
      refine defs_inv ds _ _ _ (write_piece h ⟨d.1, d.2, false⟩ (fun _ => none) ?_ w.moved ?_ _ rfl ?_)
      · simp
      · simp
      · intro ht hm
        exact hb (by rw [ht]; simpa using hm)

theorem mods_inv {c : Call I} {seen0 : List Name} : ∀ (ms : List (Name × Str)) (done ps : List Piece) (w : W I),
    (∀ m ∈ ms, Map.find c.mods m.1 = some m.2) → Inv c seen0 done ps w →
    ∃ ps', Inv c seen0 (done ++ ms.map fun d => ⟨d.1, d.2, true⟩) ps' ((ms.map (·.1)).foldl (putMod c) w)
  | [], done, ps, w, _, h => ⟨ps, by simpa using h⟩
  | d :: ms, done, ps, w, hfind, h => by
    rw [List.map_cons (f := fun d : Name × Str => (⟨d.1, d.2, true⟩ : Piece)), List.map_cons (f := fun x : Name × Str => x.1), List.foldl_cons,
      ← List.singleton_append, ← List.append_assoc]
    have hfind' := fun m (hm : m ∈ ms) => hfind m (List.mem_cons_of_mem _ hm)
    by_cases hb : (c.track && w.seen.contains d.1) = true
    · have e : putMod c w d.1 = w := by unfold putMod; rw [if_pos hb]
      rw [e]
      rw [Bool.and_eq_true] at hb
      exact mods_inv ms _ ps w hfind' (skip_piece h ⟨d.1, d.2, true⟩ hb.1 (by simpa using hb.2))
    · have e : putMod c w d.1 = { putLines (c.info d.1) (split d.2) 0 { w with moved := w.moved ++ (c.gens d.1).map fun g => (g, w.ln - 1) } with
          seen := if c.track then w.seen ++ [d.1] else w.seen } := by
        unfold putMod
        rw [if_neg hb, hfind d List.mem_cons_self]
        dsimp only
        have := (putLines_out (c.info d.1) (split d.2) 0 { w with moved := w.moved ++ (c.gens d.1).map fun g => (g, w.ln - 1) }).2.2.2.1
        dsimp only at this
        cases c.track
        · rw [if_neg (by decide), if_neg (by decide)]
          generalize putLines (c.info d.1) (split d.2) 0 _ = q at this ⊢
          cases q
          subst this
          rfl
        · rw [if_pos rfl, if_pos rfl, this]
      rw [e]
      refine mods_inv ms _ _ _ hfind' (write_piece h ⟨d.1, d.2, true⟩ (c.info d.1) ?_ _ ?_ _ rfl ?_)
      · simp
      · simp
      · intro ht hm
        exact hb (by rw [ht]; simpa using hm)

/-! ## The order of the modules -/

theorem lexLe_total : ∀ a b : Name, lexLe a b = true ∨ lexLe b a = true
  | [], _ => Or.inl (by cases ‹List Char› <;> rfl)
  | _ :: _, [] => Or.inr rfl
  | a :: s, b :: t => by
    simp only [lexLe, Bool.or_eq_true, Bool.and_eq_true, decide_eq_true_eq]
    rcases Nat.lt_trichotomy a.toNat b.toNat with h | h | h
    · exact Or.inl (Or.inl h)
    · have : a = b := Char.toNat_inj.1 h
      subst this
      rcases lexLe_total s t with h | h
      · exact Or.inl (Or.inr ⟨rfl, h⟩)
      · exact Or.inr (Or.inr ⟨rfl, h⟩)
    · exact Or.inr (Or.inl h)

theorem lexLe_trans : ∀ a b c : Name, lexLe a b = true → lexLe b c = true → lexLe a c = true
  | [], b, c, _, _ => by cases c <;> rfl
  | _ :: _, [], _, h, _ => nomatch h
  | _ :: _, _ :: _, [], _, h => nomatch h
  | a :: s, b :: t, c :: u, h1, h2 => by
    simp only [lexLe, Bool.or_eq_true, Bool.and_eq_true, decide_eq_true_eq] at h1 h2 ⊢
    rcases h1 with h1 | ⟨rfl, h1⟩
    · rcases h2 with h2 | ⟨rfl, _⟩
      · exact Or.inl (by omega)
      · exact Or.inl h1
    · rcases h2 with h2 | ⟨rfl, h2⟩
      · exact Or.inl h2
      · exact Or.inr ⟨rfl, lexLe_trans s t u h1 h2⟩

theorem lexLe_before : ∀ a b : Name, lexLe a b = true → a = b ∨ Before a b
  | [], [], _ => Or.inl rfl
  | [], b :: t, _ => Or.inr (Before.pre [] b t)
  | _ :: _, [], h => nomatch h
  | a :: s, b :: t, h => by
    simp only [lexLe, Bool.or_eq_true, Bool.and_eq_true, decide_eq_true_eq] at h
    rcases h with h | ⟨rfl, h⟩
    · exact Or.inr (Before.diff [] a s b t h)
    · rcases lexLe_before s t h with rfl | h
      · exact Or.inl rfl
      · right
        cases h with
        | pre _ b c => exact Before.pre (a :: s) b c
        | diff p x b y c hxy => exact Before.diff (a :: p) x b y c hxy

theorem insert_perm (n : Name) : ∀ l, (insertName n l).Perm (n :: l)
  | [] => List.Perm.refl _
  | m :: ms => by
    unfold insertName
    split
    · exact List.Perm.refl _
    · exact ((insert_perm n ms).cons m).trans (List.Perm.swap n m ms)

theorem sort_perm : ∀ l : List Name, (sortNames l).Perm l
  | [] => List.Perm.refl _
  | n :: l => (insert_perm n _).trans ((sort_perm l).cons n)

theorem insert_sorted (n : Name) : ∀ l, l.Pairwise (fun a b => lexLe a b = true) → (insertName n l).Pairwise (fun a b => lexLe a b = true)
  | [], _ => by simp [insertName]
  | m :: ms, h => by
    unfold insertName
    have hm := List.pairwise_cons.1 h
    split
    · next hle =>
      refine List.pairwise_cons.2 ⟨fun x hx => ?_, h⟩
      rcases List.mem_cons.1 hx with rfl | hx
      · exact hle
      · exact lexLe_trans _ _ _ hle (hm.1 x hx)
    · next hle =>
      refine List.pairwise_cons.2 ⟨fun x hx => ?_, insert_sorted n ms hm.2⟩
      rcases List.mem_cons.1 ((insert_perm n ms).mem_iff.1 hx) with rfl | hx
      · exact (lexLe_total x m).resolve_left hle
      · exact hm.1 x hx

theorem sort_sorted : ∀ l : List Name, (sortNames l).Pairwise (fun a b => lexLe a b = true)
  | [] => List.Pairwise.nil
  | n :: l => insert_sorted n _ (sort_sorted l)

/-- The modules in the order in which they are written. -/
theorem sorted_mods (m : Map Name Str) (hn : m.keys.Nodup) :
    ∃ ms : List (Name × Str), ms.map (·.1) = sortNames m.keys ∧ ms.Perm m ∧ ms.Pairwise (fun a b => Before a.1 b.1) ∧
      ∀ e ∈ ms, Map.find m e.1 = some e.2 := by
  have hp := sort_perm m.keys
  have hget : ∀ n ∈ sortNames m.keys, ∃ t, Map.find m n = some t := by
    intro n h
    have := hp.mem_iff.1 h
    rw [Map.mem_keys] at this
    obtain ⟨t, ht⟩ := this
    exact ⟨t, Map.find_of_mem hn ht⟩
  refine ⟨(sortNames m.keys).map (fun n => (n, (Map.find m n).getD [])), ?_, ?_, ?_, ?_⟩
  · rw [List.map_map]
    exact List.map_id' _
  · have h2 : (m.keys).map (fun n => (n, (Map.find m n).getD [])) = m := by
      unfold Map.keys
      rw [List.map_map]
      conv => rhs; rw [← List.map_id m]
      apply List.map_congr_left
      intro e he
      show (e.1, (Map.find m e.1).getD []) = e
      rw [Map.find_of_mem hn (v := e.2) he]
      rfl
    have h3 := hp.map (fun n => (n, (Map.find m n).getD []))
    rwa [h2] at h3
  · rw [List.pairwise_map]
    have hnd : (sortNames m.keys).Nodup := hp.nodup_iff.2 hn
    refine ((sort_sorted m.keys).and hnd).imp ?_
    rintro a b ⟨h1, h2⟩
    exact (lexLe_before a b h1).resolve_left h2
  · intro e he
    obtain ⟨n, h, rfl⟩ := List.mem_map.1 he
    obtain ⟨t, ht⟩ := hget n h
    dsimp only
    rw [ht]
    rfl

/-! ## Theorems -/

theorem emit_inv (c : Call I) (seen : List Name) (hn : c.mods.keys.Nodup) :
    ∃ all ps, Wanted c all ∧ Inv c seen all ps (emit c seen) := by
  obtain ⟨ms, h1, h2, h3, h4⟩ := sorted_mods c.mods hn
  have h0 : Inv c seen [] [] (⟨[], 1, [], [], seen⟩ : W I) := by
    refine ⟨⟨rfl, ?_, ?_⟩, rfl, ?_, ?_⟩
    · intro n i
      simp
    · intro g k
      simp
    · cases c.track <;> simp
    · cases c.track
      · rfl
      · exact ⟨List.Sublist.refl _, by simp, by simp, by simp⟩
  obtain ⟨ps1, i1⟩ := defs_inv c.defs [] [] _ h0
  obtain ⟨ps2, i2⟩ := mods_inv ms _ ps1 _ h4 i1
  refine ⟨_, ps2, ⟨ms, h2, h3, rfl⟩, ?_⟩
  unfold emit
  rw [← h1]
  simpa using i2

/-- The names of a design determine how its pieces are ordered. -/
theorem wanted_unique {c : Call I} {a b : List Piece} (ha : Wanted c a) (hb : Wanted c b) : ∀ p, p ∈ a ↔ p ∈ b := by
  obtain ⟨m, h1, _, rfl⟩ := ha
  obtain ⟨m', h1', _, rfl⟩ := hb
  intro p
  simp only [List.mem_append, List.mem_map]
  refine or_congr Iff.rfl (exists_congr fun d => and_congr_left fun _ => ?_)
  rw [h1.mem_iff, h1'.mem_iff]

/-- C112 for one call without tracking: the file is exactly the definitions followed by the modules in the order of their names,
the table has an entry for exactly the lines of modules that have information, at their place in the file, and all generators of
a module are shifted by the number of lines before it. -/
theorem write_all (c : Call I) (seen : List Name) (hn : c.mods.keys.Nodup) (ht : c.track = false) :
    ∃ ps, Wanted c ps ∧ Right c ps (emit c seen).out (emit c seen).dbg (emit c seen).moved ∧ (emit c seen).seen = seen := by
  obtain ⟨all, ps, hw, hi⟩ := emit_inv c seen hn
  have := hi.fresh
  rw [ht] at this
  simp at this
  subst this
  have hs := hi.seen
  rw [ht] at hs
  exact ⟨ps, hw, hi.right, by simpa using hs⟩

/-- C112 for one call with tracking: the same for the pieces whose names were not written before, one for each name. -/
theorem write_new (c : Call I) (seen : List Name) (hn : c.mods.keys.Nodup) (ht : c.track = true) :
    ∃ all ps, Wanted c all ∧ Fresh seen all ps ∧ Right c ps (emit c seen).out (emit c seen).dbg (emit c seen).moved ∧
      (emit c seen).seen = seen ++ ps.map (·.name) := by
  obtain ⟨all, ps, hw, hi⟩ := emit_inv c seen hn
  have h1 := hi.fresh
  have h2 := hi.seen
  rw [if_pos ht] at h1 h2
  exact ⟨all, ps, hw, h1, hi.right, h2⟩

/-- An entry of the table names a line of the file: the line of the module it was recorded for. -/
theorem table_line {c : Call I} {ps : List Piece} {out : Str} {dbg : List (Nat × I)} {moved : List (Nat × Nat)}
    (h : Right c ps out dbg moved) {n : Nat} {i : I} (hm : (n, i) ∈ dbg) :
    ∃ p ∈ ps, ∃ k l, p.isMod = true ∧ IsLine (p.text ++ ['\n']) k l ∧ c.info p.name k = some i ∧ IsLine out n l := by
  obtain ⟨a, p, b, k, l, rfl, h1, h2, h3, rfl⟩ := (h.table n i).1 hm
  refine ⟨p, by simp, k, l, h1, h2, h3, ?_⟩
  rw [h.text, render_append]
  have e : render (p :: b) = (p.text ++ ['\n']) ++ render b := by simp [render]
  rw [e]
  exact isLine_inside (bol_render a) h2

/-- The table beside the file belongs to the file after every call that had something to put into it. -/
theorem table_current (w : World I) (c : Call I) (hn : c.mods.keys.Nodup) (hd : (emit c w.seen).dbg ≠ []) :
    ∃ txt tab, (step w (.write c)).files.find c.file = some txt ∧ (step w (.write c)).tables.find c.file = some tab ∧
      ∀ n i, (n, i) ∈ tab → ∃ m src k l, (m, src) ∈ c.mods ∧ IsLine (src ++ ['\n']) k l ∧ c.info m k = some i ∧ IsLine txt n l := by
  refine ⟨(emit c w.seen).out, (emit c w.seen).dbg, ?_, ?_, ?_⟩
  · show (Map.put w.files c.file _).find c.file = _
    rw [Map.find_put, if_pos rfl]
  · have : (emit c w.seen).dbg.length > 0 := List.length_pos_iff.2 hd
    show Map.find (if (emit c w.seen).dbg.length > 0 then _ else _) c.file = _
    rw [if_pos this, Map.find_put, if_pos rfl]
  · intro n i hm
    obtain ⟨all, ps, ⟨ms, hp, _, hall⟩, hi⟩ := emit_inv c w.seen hn
    obtain ⟨p, hps, k, l, h1, h2, h3, h4⟩ := table_line hi.right hm
    have hpa : p ∈ all := by
      have := hi.fresh
      split at this
      · exact this.some_of.subset hps
      · rwa [← this]
    rw [hall, List.mem_append, List.mem_map, List.mem_map] at hpa
    rcases hpa with ⟨d, _, rfl⟩ | ⟨d, hd, rfl⟩
    · cases h1
    · exact ⟨d.1, d.2, k, l, hp.mem_iff.1 hd, h2, h3, h4⟩

/-- What was written by a history of tracked calls: the pieces of each file. -/
theorem history (ops : List (Call I)) : ∀ (w : World I) (log : List (Name × List Piece)),
    (∀ c ∈ ops, c.track = true ∧ c.mods.keys.Nodup) → ((log.map (·.1)) ++ ops.map (·.file)).Nodup →
    (∀ e ∈ log, w.files.find e.1 = some (render e.2)) → w.seen = (log.flatMap (·.2)).map (·.name) →
    ((log.flatMap (·.2)).map (·.name)).Nodup →
    ∃ log', let w' := run w (ops.map Op.write)
      (∀ e ∈ log ++ log', w'.files.find e.1 = some (render e.2)) ∧ log'.map (·.1) = ops.map (·.file) ∧
      (((log ++ log').flatMap (·.2)).map (·.name)).Nodup ∧
      (∀ e ∈ log', ∀ p ∈ e.2, ∃ c ∈ ops, ∃ all, Wanted c all ∧ p ∈ all) ∧
      ∀ c ∈ ops, ∀ all, Wanted c all → ∀ p ∈ all, ∃ e ∈ log ++ log', ∃ q ∈ e.2, q.name = p.name := by
  induction ops with
  | nil =>
    intro w log _ _ hf _ hn
    exact ⟨[], by simpa [run] using hf, rfl, by simpa using hn, by simp, by simp⟩
  | cons c ops ih =>
    intro w log hc hfiles hf hs hn
    obtain ⟨ht, hk⟩ := hc c List.mem_cons_self
    obtain ⟨all, ps, hw, hfresh, hright, hseen⟩ := write_new c w.seen hk ht
    have hnew : c.file ∉ log.map (·.1) := by
      intro hm
      rw [List.map_cons] at hfiles
      exact (List.nodup_append.1 hfiles).2.2 c.file hm c.file List.mem_cons_self rfl
    have hnames : (((log ++ [(c.file, ps)]).flatMap (·.2)).map (·.name)).Nodup := by
      rw [List.flatMap_append, List.map_append]
      refine List.nodup_append.2 ⟨hn, by simpa using hfresh.once, ?_⟩
      intro a ha b hb e
      simp at hb
      obtain ⟨p, hp, rfl⟩ := hb
      refine hfresh.new p hp ?_
      rw [hs, ← e]
      exact ha
    obtain ⟨log', h1, h2, h3, h4, h5⟩ := ih (step w (.write c)) (log ++ [(c.file, ps)]) (fun c' h => hc c' (List.mem_cons_of_mem _ h)) (by
        simpa using hfiles) (by
        intro e he
        show (Map.put w.files c.file _).find e.1 = _
        rw [Map.find_put]
        rcases List.mem_append.1 he with he | he
        · rw [if_neg]
          · exact hf e he
          · intro e'
            exact hnew (e' ▸ List.mem_map_of_mem he)
        · simp at he
          subst he
          rw [if_pos rfl, hright.text]) (by
        show (emit c w.seen).seen = _
        rw [hseen, hs]
        simp) hnames
    refine ⟨(c.file, ps) :: log', ?_, ?_, ?_, ?_, ?_⟩
    · intro e he
      exact h1 e (by simpa using he)
    · rw [List.map_cons, List.map_cons, h2]
    · simpa using h3
    · intro e he p hp
      rcases List.mem_cons.1 he with rfl | he
      · exact ⟨c, List.mem_cons_self, all, hw, hfresh.some_of.subset hp⟩
      · obtain ⟨c', hc', r⟩ := h4 e he p hp
        exact ⟨c', List.mem_cons_of_mem _ hc', r⟩
    · intro c' hc' all' hw' p hp
      rcases List.mem_cons.1 hc' with rfl | hc'
      · have hp' := (wanted_unique hw' hw p).1 hp
        rcases hfresh.covers p hp' with hx | ⟨q, hq, e⟩
        · rw [hs, List.mem_map] at hx
          obtain ⟨q, hq, e⟩ := hx
          obtain ⟨en, hen, hq⟩ := List.mem_flatMap.1 hq
          exact ⟨en, by simp [hen], q, hq, e⟩
        · exact ⟨(c'.file, ps), by simp, q, hq, e⟩
      · obtain ⟨e, he, r⟩ := h5 c' hc' all' hw' p hp
        exact ⟨e, by simpa using he, r⟩

/-- C112, partial: after any number of tracked calls on different files, in which one name always belongs to one text, every
definition and module of every call is in one of the files, and no name is written twice in all of them.
Missing, because false: a definition and a module of one name (`kinds_clash`), writing to one file again (`rewrite_loses`), and
tables left behind (`stale_table`). -/
theorem files_partial (ops : List (Call I)) (hc : ∀ c ∈ ops, c.track = true ∧ c.mods.keys.Nodup) (hf : (ops.map (·.file)).Nodup)
    (htext : ∀ c ∈ ops, ∀ c' ∈ ops, ∀ all all', Wanted c all → Wanted c' all' → ∀ p ∈ all, ∀ q ∈ all', p.name = q.name → p.text = q.text) :
    ∃ log : List (Name × List Piece), log.map (·.1) = ops.map (·.file) ∧
      (∀ e ∈ log, (run start (ops.map Op.write)).files.find e.1 = some (render e.2)) ∧
      ((log.flatMap (·.2)).map (·.name)).Nodup ∧
      ∀ c ∈ ops, ∀ all, Wanted c all → ∀ p ∈ all, Present (run start (ops.map Op.write)) p := by
  obtain ⟨log, h1, h2, h3, h4, h5⟩ := history ops start [] hc (by simpa using hf) (by simp) rfl (by simp)
  refine ⟨log, h2, fun e he => h1 e (by simpa using he), by simpa using h3, ?_⟩
  intro c hcm all hw p hp
  obtain ⟨e, he, q, hq, hn⟩ := h5 c hcm all hw p hp
  rw [List.nil_append] at he
  obtain ⟨c', hc', all', hw', hq'⟩ := h4 e he q hq
  have ht := htext c' hc' c hcm all' all hw' hw q hq' p hp hn
  obtain ⟨a, b, hab⟩ := List.append_of_mem hq
  refine ⟨e.1, a, b, ?_⟩
  rw [h1 e (by simpa using he), hab, render_append, ← ht]
  rfl

/-! ## Witnesses -/

def cA : Call Nat := ⟨['f'], true, [(['s'], ['x'])], [(['m'], ['a', '\n', 'b']), (['k'], ['c'])],
  fun n k => if n = ['m'] ∧ k = 2 then some 7 else none, fun n => if n = ['m'] then [0, 1] else [2]⟩

/-- A struct, then module `k`, then module `m`, whose second line has information. -/
example : emit cA [] = ⟨['x', '\n', 'c', '\n', 'a', '\n', 'b', '\n'], 5, [(4, 7)], [(2, 1), (0, 2), (1, 2)], [['s'], ['k'], ['m']]⟩ := by
  rfl

/-- The hypotheses of `files_partial`, for two calls that share a struct. -/
def cB : Call Nat := ⟨['g'], true, [(['s'], ['x'])], [(['n'], ['d'])], fun _ _ => none, fun _ => []⟩

example : (run start [.write cA, .write cB]).files =
    [(['f'], ['x', '\n', 'c', '\n', 'a', '\n', 'b', '\n']), (['g'], ['d', '\n'])] := by rfl

example : (∀ c ∈ [cA, cB], c.track = true ∧ c.mods.keys.Nodup) ∧ ([cA, cB].map (·.file)).Nodup := by
  refine ⟨?_, by decide⟩
  intro c hc
  simp only [List.mem_cons, List.not_mem_nil, or_false] at hc
  rcases hc with rfl | rfl <;> exact ⟨rfl, by decide⟩

/-- A struct and a module of one name, which SystemVerilog keeps apart: the module is not written. -/
def cClash : Call Nat := ⟨['f'], true, [(['s'], ['x'])], [(['s'], ['y'])], fun _ _ => none, fun _ => []⟩

theorem kinds_clash : (run start [.write cClash]).files = [(['f'], ['x', '\n'])] := by rfl

/-- The same call once more: the file is empty. -/
theorem rewrite_loses : (run start [.write cA, .write cA]).files = [(['f'], [])] := by rfl

/-- The design without information written to the same file: the old table stays. -/
def cOld : Call Nat := ⟨['f'], false, [], [(['m'], ['a'])], fun _ _ => some 7, fun _ => []⟩
def cNew : Call Nat := ⟨['f'], false, [], [(['m'], ['b'])], fun _ _ => none, fun _ => []⟩

theorem stale_table : (run start [.write cOld, .write cNew]).files = [(['f'], ['b', '\n'])] ∧
    (run start [.write cOld, .write cNew]).tables = [(['f'], [(1, 7)])] := ⟨rfl, rfl⟩

theorem not_FileClaim : ¬ FileClaim := by
  intro h
  obtain ⟨h1, _⟩ := h Nat [.write cClash] (by
    intro c hc
    simp only [List.mem_cons, List.not_mem_nil, or_false, Op.write.injEq] at hc
    subst hc
    decide)
  have hw : Wanted cClash [⟨['s'], ['x'], false⟩, ⟨['s'], ['y'], true⟩] := ⟨[(['s'], ['y'])], List.Perm.refl _, by simp, rfl⟩
  obtain ⟨f, a, b, hf⟩ := h1 cClash List.mem_cons_self _ hw ⟨['s'], ['y'], true⟩ (by simp)
  rw [kinds_clash] at hf
  unfold Map.find at hf
  have hy : 'y' ∈ ['x', '\n'] := by
    have hm := Map.mem_of_find (m := [(['f'], ['x', '\n'])]) hf
    simp only [List.mem_singleton, Prod.mk.injEq] at hm
    rw [← hm.2]
    simp
  simp at hy

end Kratos.OutFile
