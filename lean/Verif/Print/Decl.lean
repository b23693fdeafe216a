import Verif.Print.Props

/-!
# C104: the declarations of ports and variables say what the user asked for

Model of `SystemVerilogCodeGen::get_var_width_str`, `get_width_str` (src/codegen.cc:256-280),
`get_var_size_str` (1004-1014), `get_port_str` (1016-1055) and `Stream::get_var_decl` (118-156).
Text is a list of pieces, as in `Verif.Print.Model`; the words are joined with single blanks
(`string::join`).

Simplifications: the expressions of parametrised widths and sizes are those of `Verif.Ir` over
32-bit parameters (the default width of a parameter), so a variable of such an expression is a
parameter (`VarType::Parameter`).  Interface ports and the strings before and after a declaration
(`before_var_str`, `after_var_str`), which the code copies, are left out.
-/

namespace Kratos.Decl
open Kratos.Ir Kratos.Text Kratos.Print

/-! ## Model -/

/-- What the variable is made of: `is_struct`, `is_enum`, with the name of the type. -/
inductive Kind where
  | plain
  | struct (t : List Char)
  | enum (t : List Char)
  deriving DecidableEq, Repr

/-- `PortDirection`. -/
inductive Dir where
  | input | output | inout
  deriving DecidableEq, Repr

/-- The attributes of a variable or port that its declaration shows (src/expr.hh:176-262). -/
structure V where
  name : List Char
  kind : Kind
  signed : Bool
  /-- `is_packed_` -/
  packed : Bool
  explicit : Bool
  /-- `var_width_` -/
  width : Nat
  size : List Nat
  wparam : Option Expr
  /-- `size_param_` -/
  sparam : Nat → Option Expr
  /-- the name of the type parameter of `raw_type_param_` -/
  raw : Option (List Char)

/-- `is_packed()`: a struct always is (src/expr.hh:627, src/port.hh:106). -/
def V.isPacked (v : V) : Bool :=
  match v.kind with
  | .struct _ => true
  | _ => v.packed

def V.isPlain (v : V) : Bool :=
  match v.kind with
  | .plain => true
  | _ => false

def V.isStruct (v : V) : Bool :=
  match v.kind with
  | .struct _ => true
  | _ => false

def V.isEnum (v : V) : Bool :=
  match v.kind with
  | .enum _ => true
  | _ => false

/-- `uint32_t` arithmetic. -/
def dec1 (n : Nat) : Nat := (n + (2 ^ 32 - 1)) % 2 ^ 32

/-- `get_width_str(uint32_t)` (src/codegen.cc:268-270). -/
def numDim (n : Nat) : List Piece := [.sym ['['], .dec (dec1 n), .sym [':'], .dec 0, .sym [']']]

/-- What follows a parametrised bound. -/
def minus1 : List Piece := [.sym ['-'], .dec 1, .sym [':'], .dec 0, .sym [']']]

/-- `get_width_str(Var *)` (src/codegen.cc:272-279). -/
def paramDim (nm : VarId → List Char) (e : Expr) : List Piece :=
  if isVar e then .sym ['['] :: (pr nm .top e ++ minus1)
  else .sym ['['] :: .sym ['('] :: (pr nm .top e ++ .sym [')'] :: minus1)

/-- `get_var_width_str` (src/codegen.cc:256-266): no parentheses around the expression. -/
def widthText (nm : VarId → List Char) (v : V) : List Piece :=
  if (1 < v.width ∧ v.isStruct = false) ∨ v.wparam.isSome then
    match v.wparam with
    | some e => .sym ['['] :: (pr nm .top e ++ minus1)
    | none => numDim v.width
  else []

/-- The loop of `get_var_size_str` (src/codegen.cc:1004-1014), from dimension `i` on. -/
def sizeFrom (nm : VarId → List Char) (sp : Nat → Option Expr) : Nat → List Nat → List Piece
  | _, [] => []
  | i, n :: ns => (match sp i with
      | some e => paramDim nm e
      | none => numDim n) ++ sizeFrom nm sp (i + 1) ns

def sizeText (nm : VarId → List Char) (v : V) : List Piece := sizeFrom nm v.sparam 0 v.size

/-- `string::join(…, " ")`. -/
def joinW : List (List Piece) → List Piece
  | [] => []
  | [w] => w
  | w :: ws => w ++ .sp :: joinW ws

def kLogic : List Char := ['l', 'o', 'g', 'i', 'c']
def kSigned : List Char := ['s', 'i', 'g', 'n', 'e', 'd']

/-- `port_dir_to_str` (src/util.cc:112-120). -/
def dirText : Dir → List Char
  | .input => ['i', 'n', 'p', 'u', 't']
  | .output => ['o', 'u', 't', 'p', 'u', 't']
  | .inout => ['i', 'n', 'o', 'u', 't']

/-- The test of an array, src/codegen.cc:1036-1037 and 1048-1049. -/
def portArray (v : V) : Bool :=
  decide (1 < v.size.headD 0) || decide (1 < v.size.length) || v.explicit || (v.sparam 0).isSome

/-- The type of a port (src/codegen.cc:1022-1034). -/
def portType (v : V) : List Char :=
  match v.kind with
  | .enum t => t
  | .plain => match v.raw with
      | some t => t
      | none => kLogic
  | .struct t => match v.raw with
      | some r => r
      | none => t

/-- The words of `get_port_str` (src/codegen.cc:1016-1055). -/
def portWords (nm : VarId → List Char) (d : Dir) (v : V) : List (List Piece) :=
  [[.id (dirText d)], [.id (portType v)]] ++
  (if v.signed then [[.id kSigned]] else []) ++
  (if portArray v && v.isPacked then [sizeText nm v] else []) ++
  (if v.isPlain && v.raw.isNone && !(widthText nm v).isEmpty then [widthText nm v] else []) ++
  [[.id v.name]] ++
  (if portArray v && !v.isPacked then [sizeText nm v] else [])

/-- `get_port_str`. -/
def portText (nm : VarId → List Char) (d : Dir) (v : V) : List Char := render (joinW (portWords nm d v))

/-- The test of an array, src/codegen.cc:134. -/
def varArray (v : V) : Bool :=
  decide (1 < v.size.headD 0) || decide (1 < v.size.length) || v.explicit

/-- The type of a variable (src/codegen.cc:120-130). -/
def varType (v : V) : List Char :=
  match v.kind with
  | .struct t => t
  | .enum t => t
  | .plain => kLogic

/-- The words of `get_var_decl` (src/codegen.cc:118-156). -/
def varWords (nm : VarId → List Char) (v : V) : List (List Piece) :=
  [[.id (varType v)]] ++ (if v.signed then [[.id kSigned]] else []) ++
  (if varArray v then
    if v.isPacked then [sizeText nm v ++ widthText nm v, [.id v.name]]
    else (if (widthText nm v).isEmpty then [] else [widthText nm v]) ++ [[.id v.name], sizeText nm v]
  else
    (if !(widthText nm v).isEmpty && !v.isEnum then [widthText nm v] else []) ++ [[.id v.name]])

/-- `get_var_decl`. -/
def varText (nm : VarId → List Char) (v : V) : List Char := render (joinW (varWords nm v))

/-! ## Specification: reading a declaration -/

/-- What a declaration says: bounds are pairs of expressions. -/
structure Seen where
  dir : Option Dir
  type : List Char
  signed : Bool
  packed : List (Expr × Expr)
  name : List Char
  unpacked : List (Expr × Expr)

abbrev Env := List Char → Option (VarId × Nat)

/-- `[ expression : expression ]` -/
def rRange (Γ : Env) (n : Nat) (ts : List Tok) : Option ((Expr × Expr) × List Tok) :=
  match ts with
  | .sym ['['] :: r => match pExpr Γ n r with
      | some (h, .sym [':'] :: r1) => match pExpr Γ n r1 with
          | some (l, .sym [']'] :: r2) => some ((h, l), r2)
          | _ => none
      | _ => none
  | _ => none

/-- As many ranges as there are. -/
def rRanges (Γ : Env) (n : Nat) : Nat → List Tok → Option (List (Expr × Expr) × List Tok)
  | 0, _ => none
  | k + 1, .sym ['['] :: ts => match rRange Γ n (.sym ['['] :: ts) with
      | some (x, r) => match rRanges Γ n k r with
          | some (xs, r') => some (x :: xs, r')
          | none => none
      | none => none
  | _ + 1, ts => some ([], ts)

/-- The words of the language that may stand in a declaration. -/
def keywords : List (List Char) := [['i', 'n', 'p', 'u', 't'], ['o', 'u', 't', 'p', 'u', 't'], ['i', 'n', 'o', 'u', 't'], ['l', 'o', 'g', 'i', 'c'], ['s', 'i', 'g', 'n', 'e', 'd']]

def rDir : List Tok → Option Dir × List Tok
  | .id s :: r =>
      if s = ['i', 'n', 'p', 'u', 't'] then (some .input, r)
      else if s = ['o', 'u', 't', 'p', 'u', 't'] then (some .output, r)
      else if s = ['i', 'n', 'o', 'u', 't'] then (some .inout, r)
      else (none, .id s :: r)
  | r => (none, r)

/-- `logic`, `logic signed`, or the name of a type: only `logic` can be `signed`. -/
def rType : List Tok → Option ((List Char × Bool) × List Tok)
  | .id s :: r =>
      if s = ['l', 'o', 'g', 'i', 'c'] then
        match r with
        | .id s' :: r' => if s' = ['s', 'i', 'g', 'n', 'e', 'd'] then some ((s, true), r') else some ((s, false), r)
        | _ => some ((s, false), r)
      else if s ∈ keywords then none else some ((s, false), r)
  | _ => none

def rName : List Tok → Option (List Char × List Tok)
  | .id s :: r => if s ∈ keywords then none else some (s, r)
  | _ => none

/-- direction, type, packed dimensions, name, unpacked dimensions -/
def rDecl (Γ : Env) (n : Nat) (ts : List Tok) : Option (Seen × List Tok) :=
  match rType (rDir ts).2 with
  | none => none
  | some ((t, s), r) => match rRanges Γ n n r with
      | none => none
      | some (p, r) => match rName r with
          | none => none
          | some (x, r) => match rRanges Γ n n r with
              | none => none
              | some (u, r) => some (⟨(rDir ts).1, t, s, p, x, u⟩, r)

/-- The characters are a declaration. -/
def Declares (Γ : Env) (cs : List Char) (d : Seen) : Prop :=
  ∃ ts N, ∀ n ≥ N, lex n cs = some ts ∧ rDecl Γ n ts = some (d, [])

/-- The number of elements of the range `[h:l]`. -/
def count (σ : Store) (r : Expr × Expr) : Nat := r.1.eval σ - r.2.eval σ + 1

/-! What the user asked for -/

/-- An array: more than one element, a dimension that a parameter gives, or declared as one. -/
def IsArray (v : V) : Prop := v.size ≠ [1] ∨ v.explicit = true ∨ ∃ i, i < v.size.length ∧ v.sparam i ≠ none

/-- The lengths of the dimensions for given values of the parameters. -/
def dims (σ : Store) (v : V) : List Nat :=
  v.size.zipIdx.map fun e => ((v.sparam e.2).map (·.eval σ)).getD e.1

/-- The type. -/
def TypeIs (v : V) (t : List Char) : Prop :=
  match v.raw, v.kind with
  | some r, _ => t = r
  | none, .plain => t = ['l', 'o', 'g', 'i', 'c']
  | none, .struct s => t = s
  | none, .enum s => t = s

/-- The range of bits of a `logic`: none for a single bit whose width is not a parameter. -/
def Bits (σ : Store) (v : V) (l : List Nat) : Prop :=
  if v.raw = none ∧ v.kind = .plain then
    match v.wparam with
    | some e => l = [e.eval σ]
    | none => l = if v.width = 1 then [] else [v.width]
  else l = []

/-- The dimensions are packed: asked for, or an array of a struct (which the language has only
packed with its members). -/
def Packed (v : V) : Prop := (∃ t, v.kind = .struct t) ∨ v.packed = true

/-- The declaration says what the user asked for. -/
def Says (σ : Store) (d : Option Dir) (v : V) (s : Seen) : Prop :=
  s.dir = d ∧ TypeIs v s.type ∧ s.signed = v.signed ∧ s.name = v.name ∧
  ∃ bits, Bits σ v bits ∧
    ((IsArray v ∧ Packed v ∧ s.packed.map (count σ) = dims σ v ++ bits ∧ s.unpacked = []) ∨
     (IsArray v ∧ ¬ Packed v ∧ s.packed.map (count σ) = bits ∧ s.unpacked.map (count σ) = dims σ v) ∨
     (¬ IsArray v ∧ s.packed.map (count σ) = bits ∧ s.unpacked = []))

/-- A name of the user. -/
def UserName (s : List Char) : Prop := IsIdent s ∧ s ∉ keywords

/-- An expression of 32-bit parameters that `C07` covers. -/
def Okay (Γ : Env) (nm : VarId → List Char) (e : Expr) : Prop :=
  e.WF ∧ e.width = 32 ∧ Declared Γ nm e ∧ Printable e

/-- What the API gives: names are identifiers, a width is positive, there is a dimension, and a
named type has no sign (the language has none). -/
structure Legal (Γ : Env) (nm : VarId → List Char) (v : V) : Prop where
  name : UserName v.name
  struct : ∀ t, v.kind = .struct t → UserName t
  enum : ∀ t, v.kind = .enum t → UserName t
  raw : ∀ t, v.raw = some t → UserName t
  width : 0 < v.width ∧ v.width < 2 ^ 32
  nonempty : v.size ≠ []
  size : ∀ n ∈ v.size, 0 < n ∧ n < 2 ^ 32
  wparam : ∀ e, v.wparam = some e → Okay Γ nm e
  sparam : ∀ i e, v.sparam i = some e → Okay Γ nm e
  signed : v.signed = true → v.kind = .plain ∧ v.raw = none

/-- Values of the parameters for which widths and sizes are positive. -/
def Values (σ : Store) (v : V) : Prop :=
  (∀ e, v.wparam = some e → 0 < e.eval σ ∧ e.eval σ < 2 ^ 32) ∧
  ∀ i e, v.sparam i = some e → 0 < e.eval σ ∧ e.eval σ < 2 ^ 32

/-- Expressions that bind at least as tightly as a subtraction. -/
def Tight : Expr → Prop
  | .bin op _ _ => op = .power ∨ op = .multiply ∨ op = .divide ∨ op = .mod ∨ op = .add ∨ op = .minus
  | .cond _ _ _ => False
  | _ => True

/-- C104 for ports and for variables: the declaration reads as one, and for all values of the
parameters it says what the user asked for. -/
def PortClaim : Prop :=
  ∀ Γ nm d v, Legal Γ nm v → (∀ t, v.kind = .enum t → v.raw = none) →
    ∃ s, Declares Γ (portText nm d v) s ∧ ∀ σ, Values σ v → Says σ (some d) v s
def VarClaim : Prop :=
  ∀ Γ nm v, Legal Γ nm v → (∀ t, v.kind = .enum t → v.raw = none) →
    ∃ s, Declares Γ (varText nm v) s ∧ ∀ σ, Values σ v → Says σ none v s

/-! ## Lexing -/

theorem lexok_join {w r : List Piece} (hw : LexOk w) (hr : LexOk r) : LexOk (w ++ .sp :: r) := by
  intro x ts hf hx
  have h1 := hw (' ' :: (render r ++ x)) _ (Follow.cons (by simp)) (lexes_sp (hr x ts hf hx))
  simpa [render, render_append, strip_append, Piece.text] using h1

theorem lexok_joinW : ∀ ws : List (List Piece), (∀ w ∈ ws, LexOk w) → LexOk (joinW ws)
  | [], _ => by
      intro x ts _ hx
      simpa [joinW, render] using hx
  | [w], h => h w (by simp)
  | w :: w' :: ws, h => lexok_join (h w (by simp)) (lexok_joinW (w' :: ws) fun x hx => h x (by simp [hx]))

theorem strip_joinW : ∀ ws : List (List Piece), strip (joinW ws) = (ws.map strip).flatten
  | [] => rfl
  | [w] => by simp [joinW]
  | w :: w' :: ws => by
      have h := strip_joinW (w' :: ws)
      rw [joinW, strip_append, strip_sp, h]
      · simp
      · exact nofun

theorem lexok_id {s : List Char} (h : IsIdent s) : LexOk [.id s] := by
  intro x ts hf hx
  have := lexes_id h hf hx
  simpa [render, Piece.text] using this

theorem lexok_append {a b : List Piece} (hb : b = [] ∨ ∃ r, render b = '[' :: r) (h1 : LexOk a) (h2 : LexOk b) :
    LexOk (a ++ b) := by
  intro x ts hf hx
  have h := h2 x ts hf hx
  have hfo : Follow (render b ++ x) := by
    rcases hb with rfl | ⟨r, hr⟩
    · simpa [render] using hf
    · rw [hr]; exact Follow.cons (by simp)
  have := h1 _ _ hfo h
  simpa [render_append, strip_append] using this

theorem lex_open {x : List Char} {ts} (h : Lexes x ts) : Lexes ('[' :: x) (.sym ['['] :: ts) :=
  lexes_sym (by decide) (fun b t _ => by simp [safe, in2, syms2, syms3]) h

theorem digit_head (n : Nat) (x : List Char) : ∃ c cs, printNat 10 n ++ x = c :: cs ∧ isDigit c = true := by
  obtain ⟨c, cs, h, hc⟩ := print_head10 n
  exact ⟨c, cs ++ x, by simp [h], hc⟩

theorem lex_punct {a : Char} (ha : a = ':' ∨ a = '-') {n x ts} (h : Lexes (printNat 10 n ++ x) ts) :
    Lexes (a :: (printNat 10 n ++ x)) (.sym [a] :: ts) := by
  refine lexes_sym (by rcases ha with rfl | rfl <;> decide) ?_ h
  intro b t hb
  obtain ⟨c, cs, hc, hd⟩ := digit_head n x
  rw [hc] at hb
  cases hb
  exact safe_of_digit (by rcases ha with rfl | rfl <;> simp) hd

theorem lex_zero {r ts} (h : Lexes r ts) :
    Lexes (':' :: (printNat 10 0 ++ ']' :: r)) (.sym [':'] :: .dec 0 :: .sym [']'] :: ts) :=
  lex_punct (Or.inl rfl) (lexes_dec (by intro c t h; cases h; decide) (by intro t h; cases h)
    (lex_close (by simp) h))

theorem lex_minus1 {r ts} (h : Lexes r ts) : Lexes (render minus1 ++ r) (minus1 ++ ts) := by
  have h1 := lex_punct (a := '-') (n := 1) (Or.inr rfl)
    (lexes_dec (by intro c t h; cases h; decide) (by intro t h; cases h) (lex_zero h))
  simpa [minus1, render, Piece.text] using h1

theorem strip_minus1 : strip minus1 = minus1 := rfl

theorem lexok_dec (m : Nat) : LexOk [.sym ['['], .dec m, .sym [':'], .dec 0, .sym [']']] := by
  intro r ts _ hr
  have h1 := lex_open (lexes_dec (n := m) (by intro c t h; cases h; decide) (by intro t h; cases h) (lex_zero hr))
  simpa [render, Piece.text] using h1

theorem lexok_num (n : Nat) : LexOk (numDim n) := lexok_dec (dec1 n)

variable {Γ : Env} {nm : VarId → List Char}

theorem lexok_bare {e : Expr} (h : Okay Γ nm e) : LexOk (.sym ['['] :: (pr nm .top e ++ minus1)) := by
  intro r ts _ hr
  have h1 := lex_pr e .top h.2.2.2 h.2.2.1 (render minus1 ++ r) _
    (by simp [minus1, render, Piece.text]; exact Follow.cons (by simp)) (lex_minus1 hr)
  have h2 := lex_open h1
  simpa [render, render_append, strip_append, strip_minus1, Piece.text] using h2

theorem lexok_paren {e : Expr} (h : Okay Γ nm e) :
    LexOk (.sym ['['] :: .sym ['('] :: (pr nm .top e ++ .sym [')'] :: minus1)) := by
  intro r ts _ hr
  have h0 := lex_close (a := ')') (by simp) (lex_minus1 hr)
  have h1 := lex_pr e .top h.2.2.2 h.2.2.1 (')' :: (render minus1 ++ r)) _ (Follow.cons (by simp)) h0
  obtain ⟨c, cs, hc, hh⟩ := pr_head e .top h.2.2.2 h.2.2.1
  have h2 : Lexes ('(' :: (render (pr nm .top e) ++ ')' :: (render minus1 ++ r))) _ :=
    lexes_sym (by decide) (by
      intro b t hb
      rw [hc] at hb
      cases hb
      exact hh.safe_paren.1) h1
  have h3 := lex_open h2
  simpa [render, render_append, strip_append, strip_minus1, Piece.text] using h3

theorem lexok_dim {e : Expr} (h : Okay Γ nm e) : LexOk (paramDim nm e) := by
  unfold paramDim
  split
  · exact lexok_bare h
  · exact lexok_paren h

theorem open_dim (e : Expr) : ∃ r, paramDim nm e = .sym ['['] :: r := by
  unfold paramDim; split <;> exact ⟨_, rfl⟩

theorem sizeFrom_head (sp : Nat → Option Expr) (i : Nat) (ns : List Nat) :
    sizeFrom nm sp i ns = [] ∨ ∃ r, sizeFrom nm sp i ns = .sym ['['] :: r := by
  cases ns with
  | nil => exact Or.inl rfl
  | cons n ns =>
    refine Or.inr ?_
    simp only [sizeFrom]
    cases sp i with
    | none => exact ⟨_, rfl⟩
    | some e =>
      obtain ⟨r, hr⟩ := open_dim (nm := nm) e
      exact ⟨r ++ sizeFrom nm sp (i + 1) ns, by simp [hr]⟩

theorem width_head (v : V) : widthText nm v = [] ∨ ∃ r, widthText nm v = .sym ['['] :: r := by
  unfold widthText
  split
  · split <;> exact Or.inr ⟨_, rfl⟩
  · exact Or.inl rfl

theorem render_open {b : List Piece} (h : b = [] ∨ ∃ r, b = .sym ['['] :: r) : b = [] ∨ ∃ r, render b = '[' :: r := by
  rcases h with h | ⟨r, rfl⟩
  · exact Or.inl h
  · exact Or.inr ⟨render r, by simp [render, Piece.text]⟩

theorem lexok_size (sp : Nat → Option Expr) (h : ∀ i e, sp i = some e → Okay Γ nm e) :
    ∀ (ns : List Nat) (i : Nat), LexOk (sizeFrom nm sp i ns)
  | [], _ => by intro x ts _ hx; simpa [sizeFrom, render] using hx
  | n :: ns, i => by
      rw [sizeFrom]
      refine lexok_append (render_open (sizeFrom_head sp (i + 1) ns)) ?_ (lexok_size sp h ns (i + 1))
      cases hs : sp i with
      | none => exact lexok_num n
      | some e => exact lexok_dim (h i e hs)

theorem lexok_width {v : V} (h : ∀ e, v.wparam = some e → Okay Γ nm e) : LexOk (widthText nm v) := by
  unfold widthText
  split
  · cases hw : v.wparam with
    | none => exact lexok_num _
    | some e => exact lexok_bare (h e hw)
  · intro x ts _ hx; simpa [render] using hx

/-! ## Reading ranges -/

/-- The tokens are one range of `g σ` elements. -/
def R1 (Γ : Env) (C : Store → Prop) (ts : List Tok) (g : Store → Nat) : Prop :=
  (∃ b, ts = .sym ['['] :: b) ∧ ∀ rest, ∃ x, (∀ σ, C σ → count σ x = g σ) ∧
    ∃ N, ∀ n ≥ N, rRange Γ n (ts ++ rest) = some (x, rest)

/-- The tokens are ranges. -/
def Rg (Γ : Env) (C : Store → Prop) (ts : List Tok) (f : Store → List Nat) : Prop :=
  (ts = [] ∨ ∃ b, ts = .sym ['['] :: b) ∧ ∀ rest, NoSel rest →
    ∃ xs, (∀ σ, C σ → xs.map (count σ) = f σ) ∧ (ts = [] → xs = []) ∧
      ∃ N, ∀ n ≥ N, ∀ k ≥ N, rRanges Γ n k (ts ++ rest) = some (xs, rest)

theorem rg_nil (C : Store → Prop) : Rg Γ C [] fun _ => [] := by
  refine ⟨Or.inl rfl, fun rest hn => ⟨[], fun _ _ => rfl, fun _ => rfl, 1, fun n _ k hk => ?_⟩⟩
  obtain ⟨k, rfl⟩ : ∃ j, k = j + 1 := ⟨k - 1, by omega⟩
  rw [List.nil_append]
  unfold rRanges
  split
  · rename_i he; cases he
  · rename_i he _; exact absurd rfl (hn _)
  · rfl

theorem rg_cons {C : Store → Prop} {ts ts' : List Tok} {g : Store → Nat} {f : Store → List Nat}
    (h : R1 Γ C ts g) (hr : Rg Γ C ts' f) : Rg Γ C (ts ++ ts') fun σ => g σ :: f σ := by
  obtain ⟨⟨b, hb⟩, h1⟩ := h
  refine ⟨Or.inr ⟨b ++ ts', by simp [hb]⟩, fun rest hn => ?_⟩
  obtain ⟨x, hx, N, hN⟩ := h1 (ts' ++ rest)
  obtain ⟨xs, hxs, _, M, hM⟩ := hr.2 rest hn
  refine ⟨x :: xs, fun σ hσ => by simp [hx σ hσ, hxs σ hσ], fun he => by simp [hb] at he, N + M + 1, fun n hn' k hk => ?_⟩
  obtain ⟨k, rfl⟩ : ∃ j, k = j + 1 := ⟨k - 1, by omega⟩
  have a := hN n (by omega)
  have c := hM n (by omega) k (by omega)
  rw [List.append_assoc]
  rw [hb] at a ⊢
  simp only [List.cons_append] at a ⊢
  simp only [rRanges, a, c]

theorem rg_one {C : Store → Prop} {ts : List Tok} {g : Store → Nat} (h : R1 Γ C ts g) : Rg Γ C ts fun σ => [g σ] := by
  have := rg_cons h (rg_nil C)
  simpa using this

theorem unary_dec {n : Nat} {ts : List Tok} (h : ∀ r, ts ≠ .sym ['\''] :: r) :
    Parses (fun k => pUnary Γ k (.dec n :: ts)) (.const 32 (n % 2 ^ 32 : Nat), ts) := by
  refine ⟨1, fun k hk => ?_⟩
  obtain ⟨k, rfl⟩ : ∃ j, k = j + 1 := ⟨k - 1, by omega⟩
  simp only [pUnary]
  split
  · exact absurd rfl (h _)
  · rfl

theorem endE_close (r : List Tok) : EndE (.sym [']'] :: r) := by
  refine ⟨?_, ?_, ?_⟩
  · intro r' e; cases e
  · intro s' r' op q e hb; cases e; cases hb
  · intro r' e; cases e

theorem expr_dec {n : Nat} {ts : List Tok} (h : ∀ r, ts ≠ .sym ['\''] :: r) (he : EndE ts) :
    Parses (fun k => pExpr Γ k (.dec n :: ts)) (.const 32 (n % 2 ^ 32 : Nat), ts) :=
  expr_of_unary (unary_dec h) he

theorem endE_colon (r : List Tok) : EndE (.sym [':'] :: r) := endE_of r (by simp)

/-- A range from a parse of the upper bound. -/
theorem range_of {h : Expr} {ts rest : List Tok}
    (hp : Parses (fun n => pExpr Γ n (ts ++ .sym [':'] :: .dec 0 :: .sym [']'] :: rest))
      (h, .sym [':'] :: .dec 0 :: .sym [']'] :: rest)) :
    ∃ N, ∀ n ≥ N, rRange Γ n ((.sym ['['] :: (ts ++ [.sym [':'], .dec 0, .sym [']']])) ++ rest) =
      some ((h, .const 32 0), rest) := by
  obtain ⟨N, hN⟩ := hp
  obtain ⟨M, hM⟩ := expr_dec (Γ := Γ) (n := 0) (ts := .sym [']'] :: rest) (by intro r hr; cases hr) (endE_close rest)
  refine ⟨N + M, fun n hn => ?_⟩
  have a := hN n (by omega)
  have b := hM n (by omega)
  simp only at a b
  simp only [List.cons_append, List.append_assoc, List.nil_append, rRange, a, b]
  simp

theorem count_zero (σ : Store) (h : Expr) : count σ (h, .const 32 0) = h.eval σ + 1 := by
  simp [count, Expr.eval, pattern]

theorem r1_num {C : Store → Prop} {n : Nat} (h0 : 0 < n) (h1 : n < 2 ^ 32) : R1 Γ C (strip (numDim n)) fun _ => n := by
  refine ⟨⟨_, rfl⟩, fun rest => ⟨(.const 32 (dec1 n % 2 ^ 32 : Nat), .const 32 0), fun σ _ => ?_, ?_⟩⟩
  · rw [count_zero]
    simp only [Expr.eval, pattern_nat, dec1]
    omega
  · exact range_of (ts := [.dec (dec1 n)]) (expr_dec (by intro r hr; cases hr) (endE_colon _))

theorem prec_tight {op : BinOp} (h : op = .power ∨ op = .multiply ∨ op = .divide ∨ op = .mod ∨ op = .add ∨ op = .minus) :
    9 ≤ prec op := by
  rcases h with rfl | rfl | rfl | rfl | rfl | rfl <;> decide

theorem noSel_minus (r : List Tok) : NoSel (.sym ['-'] :: r) := by intro r' h; cases h

/-- The loop after the expression: `- 1`. -/
theorem loop_minus {m : Nat} (hm : 1 ≤ m ∧ m ≤ 9) (e : Expr) (rest : List Tok) :
    Parses (fun n => pLoop Γ n m e (.sym ['-'] :: .dec 1 :: .sym [':'] :: rest))
      (.bin .minus e (.const 32 (1 % 2 ^ 32 : Nat)), .sym [':'] :: rest) :=
  loop_step (op := .minus) (show m ≤ 9 from hm.2)
    (bin_of_unary (unary_dec (by intro r hr; cases hr)) (loop_stop ((endE_colon rest).2.1.mono (by decide))))
    (loop_stop ((endE_colon rest).2.1.mono hm.1))

theorem eval_minus {σ : Store} {e e' : Expr} (hs : Same e' e) (hw : e.width = 32)
    (h0 : 0 < e.eval σ) (h1 : e.eval σ < 2 ^ 32) :
    (Expr.bin .minus e' (.const 32 (1 % 2 ^ 32 : Nat))).eval σ + 1 = e.eval σ := by
  have hw' : e'.width = 32 := hs.1.trans hw
  simp only [Expr.eval, hw', hs.2 σ, pattern_nat, BinOp.sem]
  omega

/-- A tight expression followed by `-1`. -/
theorem parse_tight {e : Expr} (h : Okay Γ nm e) (ht : Tight e) (rest : List Tok) :
    ∃ e', Same e' e ∧ Parses (fun n => pExpr Γ n (strip (pr nm .top e) ++ .sym ['-'] :: .dec 1 :: .sym [':'] :: rest))
      (.bin .minus e' (.const 32 (1 % 2 ^ 32 : Nat)), .sym [':'] :: rest) := by
  have hg := good_all (Γ := Γ) (name := nm) e h.2.2.2 h.2.2.1 h.1
  have hun : leafIn .top e = true → ∃ e', Same e' e ∧
      Parses (fun n => pExpr Γ n (strip (pr nm .top e) ++ .sym ['-'] :: .dec 1 :: .sym [':'] :: rest))
        (.bin .minus e' (.const 32 (1 % 2 ^ 32 : Nat)), .sym [':'] :: rest) := by
    intro hl
    obtain ⟨e', hs, hp⟩ := hg.un .top hl (.sym ['-'] :: .dec 1 :: .sym [':'] :: rest) (noSel_minus _)
    exact ⟨e', hs, expr_of_bin (bin_of_unary hp (loop_minus (by decide) e' rest)) (endE_colon rest).2.2⟩
  cases e with
  | bin op l r =>
    have hp := prec_tight ht
    obtain ⟨e', hs, hl⟩ := hg.lead op 1 (.sym ['-'] :: .dec 1 :: .sym [':'] :: rest) (prec_pos op) (by
      intro s r' o q he hb
      cases he
      have : q = 9 := by
        have : binTok ['-'] = some (.minus, 9) := rfl
        rw [this] at hb; cases hb; rfl
      omega) (noSel_minus _)
    have hb : tk nm (.arg (.bin op)) (.bin op l r) = strip (pr nm .top (.bin op l r)) := by
      simp [tk, pr, bare, paren]
    rw [hb] at hl
    exact ⟨e', hs, expr_of_bin (hl _ (loop_minus (by decide) e' rest)) (endE_colon rest).2.2⟩
  | cond p l r => exact ht.elim
  | concat l r => exact hun (by simp [leafIn])
  | _ => exact hun rfl

theorem r1_bare {C : Store → Prop} {e : Expr} (h : Okay Γ nm e) (ht : Tight e)
    (hv : ∀ σ, C σ → 0 < e.eval σ ∧ e.eval σ < 2 ^ 32) :
    R1 Γ C (strip (.sym ['['] :: (pr nm .top e ++ minus1))) fun σ => e.eval σ := by
  refine ⟨⟨_, rfl⟩, fun rest => ?_⟩
  obtain ⟨e', hs, hp⟩ := parse_tight h ht (.dec 0 :: .sym [']'] :: rest)
  refine ⟨(.bin .minus e' (.const 32 (1 % 2 ^ 32 : Nat)), .const 32 0), fun σ hσ => ?_, ?_⟩
  · rw [count_zero]
    exact eval_minus hs h.2.1 (hv σ hσ).1 (hv σ hσ).2
  · obtain ⟨N, hN⟩ := range_of (Γ := Γ) (ts := strip (pr nm .top e) ++ [.sym ['-'], .dec 1]) (rest := rest)
      (h := .bin .minus e' (.const 32 (1 % 2 ^ 32 : Nat))) (by simpa using hp)
    refine ⟨N, fun n hn => ?_⟩
    have := hN n hn
    simpa [strip_append, strip_minus1, minus1] using this

theorem r1_paren {C : Store → Prop} {e : Expr} (h : Okay Γ nm e)
    (hv : ∀ σ, C σ → 0 < e.eval σ ∧ e.eval σ < 2 ^ 32) :
    R1 Γ C (strip (.sym ['['] :: .sym ['('] :: (pr nm .top e ++ .sym [')'] :: minus1))) fun σ => e.eval σ := by
  refine ⟨⟨_, rfl⟩, fun rest => ?_⟩
  have hg := good_all (Γ := Γ) (name := nm) e h.2.2.2 h.2.2.1 h.1
  obtain ⟨e', hs, hp⟩ := hg.full (.sym [')'] :: .sym ['-'] :: .dec 1 :: .sym [':'] :: .dec 0 :: .sym [']'] :: rest)
    (endE_of _ (Or.inl rfl))
  have hu := expr_of_bin (bin_of_unary (unary_paren hp) (loop_minus (by decide) e' (.dec 0 :: .sym [']'] :: rest)))
    (endE_colon _).2.2
  refine ⟨(.bin .minus e' (.const 32 (1 % 2 ^ 32 : Nat)), .const 32 0), fun σ hσ => ?_, ?_⟩
  · rw [count_zero]
    exact eval_minus hs h.2.1 (hv σ hσ).1 (hv σ hσ).2
  · obtain ⟨N, hN⟩ := range_of (Γ := Γ) (ts := .sym ['('] :: (tk nm .top e ++ [.sym [')'], .sym ['-'], .dec 1])) (rest := rest)
      (h := .bin .minus e' (.const 32 (1 % 2 ^ 32 : Nat))) (by simpa using hu)
    refine ⟨N, fun n hn => ?_⟩
    have := hN n hn
    simpa [strip_append, strip_minus1, minus1, tk] using this

theorem r1_dim {C : Store → Prop} {e : Expr} (h : Okay Γ nm e)
    (hv : ∀ σ, C σ → 0 < e.eval σ ∧ e.eval σ < 2 ^ 32) : R1 Γ C (strip (paramDim nm e)) fun σ => e.eval σ := by
  unfold paramDim
  split
  · refine r1_bare h ?_ hv
    cases e <;> simp [isVar] at *
    trivial
  · exact r1_paren h hv

theorem rg_size {v : V} (hl : Legal Γ nm v) :
    ∀ (ns : List Nat) (i : Nat), (∀ n ∈ ns, 0 < n ∧ n < 2 ^ 32) →
      Rg Γ (fun σ => Values σ v) (strip (sizeFrom nm v.sparam i ns)) fun σ =>
        (ns.zipIdx i).map fun e => ((v.sparam e.2).map (·.eval σ)).getD e.1
  | [], i, _ => rg_nil _
  | n :: ns, i, hn => by
      have ih := rg_size hl ns (i + 1) fun m hm => hn m (by simp [hm])
      rw [sizeFrom, strip_append]
      cases hs : v.sparam i with
      | none =>
        have := rg_cons (r1_num (Γ := Γ) (C := fun σ => Values σ v) (hn n (by simp)).1 (hn n (by simp)).2) ih
        simpa [List.zipIdx_cons, hs] using this
      | some e =>
        have := rg_cons (r1_dim (C := fun σ => Values σ v) (hl.sparam i e hs) fun σ hσ => hσ.2 i e hs) ih
        simpa [List.zipIdx_cons, hs] using this

theorem rg_dims {v : V} (hl : Legal Γ nm v) : Rg Γ (fun σ => Values σ v) (strip (sizeText nm v)) fun σ => dims σ v :=
  rg_size hl v.size 0 hl.size

/-- The range of the width, for a `logic`. -/
theorem rg_width {v : V} (hl : Legal Γ nm v) (hk : v.kind = .plain) (hr : v.raw = none) (ht : ∀ e, v.wparam = some e → Tight e) :
    ∃ f, Rg Γ (fun σ => Values σ v) (strip (widthText nm v)) f ∧ ∀ σ, Bits σ v (f σ) := by
  cases hw : v.wparam with
  | some e =>
    refine ⟨fun σ => [e.eval σ], ?_, fun σ => by simp [Bits, hk, hr, hw]⟩
    have : widthText nm v = .sym ['['] :: (pr nm .top e ++ minus1) := by simp [widthText, hw]
    rw [this]
    exact rg_one (r1_bare (hl.wparam e hw) (ht e hw) fun σ hσ => hσ.1 e hw)
  | none =>
    by_cases h1 : v.width = 1
    · refine ⟨fun _ => [], ?_, fun σ => by simp only [Bits, hk, hr, hw, h1, and_self, if_true]⟩
      have : widthText nm v = [] := by simp [widthText, hw, h1]
      rw [this]
      exact rg_nil _
    · refine ⟨fun _ => [v.width], ?_, fun σ => by simp [Bits, hk, hr, hw, h1]⟩
      have h0 := hl.width
      have : widthText nm v = numDim v.width := by
        unfold widthText
        rw [if_pos (Or.inl ⟨by omega, by simp [V.isStruct, hk]⟩), hw]
      rw [this]
      exact rg_one (r1_num hl.width.1 hl.width.2)

/-- Dimensions, then the width: packed arrays. -/
theorem rg_both {v : V} (hl : Legal Γ nm v) {ts : List Tok} {f : Store → List Nat}
    (h : Rg Γ (fun σ => Values σ v) ts f) :
    ∀ (ns : List Nat) (i : Nat), (∀ n ∈ ns, 0 < n ∧ n < 2 ^ 32) →
      Rg Γ (fun σ => Values σ v) (strip (sizeFrom nm v.sparam i ns) ++ ts) fun σ =>
        ((ns.zipIdx i).map fun e => ((v.sparam e.2).map (·.eval σ)).getD e.1) ++ f σ
  | [], i, _ => by simpa [sizeFrom] using h
  | n :: ns, i, hn => by
      have ih := rg_both hl h ns (i + 1) fun m hm => hn m (by simp [hm])
      rw [sizeFrom, strip_append, List.append_assoc]
      cases hs : v.sparam i with
      | none =>
        have := rg_cons (r1_num (Γ := Γ) (C := fun σ => Values σ v) (hn n (by simp)).1 (hn n (by simp)).2) ih
        simpa [List.zipIdx_cons, hs] using this
      | some e =>
        have := rg_cons (r1_dim (C := fun σ => Values σ v) (hl.sparam i e hs) fun σ hσ => hσ.2 i e hs) ih
        simpa [List.zipIdx_cons, hs] using this

/-! ## Reading declarations -/

def dirToks : Option Dir → List Tok
  | some d => [.id (dirText d)]
  | none => []

theorem kSigned_kw : kSigned ∈ keywords := by simp [kSigned, keywords]

theorem rDir_dir (d : Dir) (r : List Tok) : rDir (.id (dirText d) :: r) = (some d, r) := by
  cases d <;> simp [rDir, dirText]

theorem rDir_none {t : List Char} (h : t = kLogic ∨ t ∉ keywords) (r : List Tok) : rDir (.id t :: r) = (none, .id t :: r) := by
  rcases h with rfl | h
  · simp [rDir, kLogic]
  · simp only [keywords, List.mem_cons, List.not_mem_nil, or_false, not_or] at h
    simp [rDir, h]

theorem rType_ok {t : List Char} {sg : Bool} (h : t = kLogic ∨ t ∉ keywords ∧ sg = false) {r : List Tok}
    (hr : ∀ r', r ≠ .id kSigned :: r') :
    rType (.id t :: ((if sg then [.id kSigned] else []) ++ r)) = some ((t, sg), r) := by
  rcases h with rfl | ⟨h, rfl⟩
  · cases sg with
    | true => simp [rType, kLogic, kSigned]
    | false =>
      simp only [Bool.false_eq_true, if_false, List.nil_append, rType, kLogic, if_true]
      cases r with
      | nil => rfl
      | cons a r =>
        cases a with
        | id s =>
          have : ¬ s = kSigned := fun e => hr r (by rw [e])
          simp only [kSigned] at this
          simp [this]
        | _ => rfl
  · have h' := h
    simp only [keywords, List.mem_cons, List.not_mem_nil, or_false, not_or] at h'
    simp only [Bool.false_eq_true, if_false, List.nil_append, rType]
    rw [if_neg h'.2.2.2.1, if_neg h]

theorem decl_reads {C : Store → Prop} (dir : Option Dir) {t name : List Char} {sg : Bool} {tA tB : List Tok}
    {f g : Store → List Nat} (hn : name ∉ keywords) (ht : t = kLogic ∨ t ∉ keywords ∧ sg = false)
    (hA : Rg Γ C tA f) (hB : Rg Γ C tB g) :
    ∃ xs ys, (∀ σ, C σ → xs.map (count σ) = f σ) ∧ (∀ σ, C σ → ys.map (count σ) = g σ) ∧
      (tA = [] → xs = []) ∧ (tB = [] → ys = []) ∧ ∃ N, ∀ n ≥ N,
        rDecl Γ n (dirToks dir ++ .id t :: ((if sg then [.id kSigned] else []) ++ (tA ++ .id name :: tB))) =
          some (⟨dir, t, sg, xs, name, ys⟩, []) := by
  obtain ⟨xs, hxs, hx0, N, hN⟩ := hA.2 (.id name :: tB) (by intro r h; cases h)
  obtain ⟨ys, hys, hy0, M, hM⟩ := hB.2 [] (by intro r h; cases h)
  refine ⟨xs, ys, hxs, hys, hx0, hy0, N + M, fun n hn' => ?_⟩
  have a := hN n (by omega) n (by omega)
  have b := hM n (by omega) n (by omega)
  rw [List.append_nil] at b
  have hd : rDir (dirToks dir ++ .id t :: ((if sg then [.id kSigned] else []) ++ (tA ++ .id name :: tB))) =
      (dir, .id t :: ((if sg then [.id kSigned] else []) ++ (tA ++ .id name :: tB))) := by
    cases dir with
    | some d => exact rDir_dir d _
    | none => exact rDir_none (ht.imp id (·.1)) _
  have htt := rType_ok (r := tA ++ .id name :: tB) ht (by
    intro r' h
    rcases hA.1 with h0 | ⟨b', h0⟩
    · rw [h0, List.nil_append] at h
      cases h
      exact hn kSigned_kw
    · rw [h0] at h; cases h)
  simp only [rDecl, hd, htt, a, rName, if_neg hn, b]

theorem declares_of {C : Store → Prop} (dir : Option Dir) {t name : List Char} {sg : Bool} {tA tB : List Tok}
    {f g : Store → List Nat} {ws : List (List Piece)} (hlex : ∀ w ∈ ws, LexOk w)
    (hs : (ws.map strip).flatten = dirToks dir ++ .id t :: ((if sg then [.id kSigned] else []) ++ (tA ++ .id name :: tB)))
    (hn : name ∉ keywords) (ht : t = kLogic ∨ t ∉ keywords ∧ sg = false)
    (hA : Rg Γ C tA f) (hB : Rg Γ C tB g) :
    ∃ xs ys, (∀ σ, C σ → xs.map (count σ) = f σ) ∧ (∀ σ, C σ → ys.map (count σ) = g σ) ∧
      (tA = [] → xs = []) ∧ (tB = [] → ys = []) ∧ Declares Γ (render (joinW ws)) ⟨dir, t, sg, xs, name, ys⟩ := by
  obtain ⟨xs, ys, h1, h2, h3, h4, N, hN⟩ := decl_reads dir hn ht hA hB
  obtain ⟨M, hM⟩ := lexok_joinW ws hlex [] [] (Or.inl rfl) lexes_nil
  refine ⟨xs, ys, h1, h2, h3, h4, _, N + M, fun n hn' => ⟨?_, hN n (by omega)⟩⟩
  have := hM n (by omega)
  rw [List.append_nil, List.append_nil, strip_joinW, hs] at this
  exact this

/-- A text reads as at most one declaration. -/
theorem declares_unique {cs : List Char} {a b : Seen} (h₁ : Declares Γ cs a) (h₂ : Declares Γ cs b) : a = b := by
  obtain ⟨t₁, N₁, h₁⟩ := h₁
  obtain ⟨t₂, N₂, h₂⟩ := h₂
  have x := h₁ (max N₁ N₂) (by omega)
  have y := h₂ (max N₁ N₂) (by omega)
  have ht : t₁ = t₂ := Option.some.inj (x.1.symm.trans y.1)
  subst ht
  exact congrArg (·.1) (Option.some.inj (x.2.symm.trans y.2))

theorem ident_kw {s : List Char} (h : s ∈ keywords) : IsIdent s := by
  simp only [keywords, List.mem_cons, List.not_mem_nil, or_false] at h
  rcases h with rfl | rfl | rfl | rfl | rfl <;> exact ⟨⟨_, _, rfl, by decide⟩, by decide⟩

theorem dirText_kw (d : Dir) : dirText d ∈ keywords := by cases d <;> simp [dirText, keywords]

theorem portArray_iff {v : V} (hl : Legal Γ nm v) : portArray v = true ↔ IsArray v := by
  have h0 := hl.nonempty
  have h1 := hl.size
  simp only [portArray, Bool.or_eq_true, decide_eq_true_eq, IsArray]
  cases hs : v.size with
  | nil => exact absurd hs h0
  | cons n ns =>
    rw [hs] at h1
    have hn := (h1 n (by simp)).1
    cases ns with
    | nil =>
      simp only [List.headD_cons, List.length_cons, List.length_nil, ne_eq, List.cons.injEq, and_true]
      constructor
      · rintro (((h | h) | h) | h)
        · exact Or.inl (by omega)
        · omega
        · exact Or.inr (Or.inl h)
        · refine Or.inr (Or.inr ⟨0, by omega, ?_⟩)
          intro e; rw [e] at h; cases h
      · rintro (h | h | ⟨i, hi, h⟩)
        · exact Or.inl (Or.inl (Or.inl (by omega)))
        · exact Or.inl (Or.inr h)
        · have : i = 0 := by omega
          subst this
          exact Or.inr (by cases h' : v.sparam 0 with
            | none => exact absurd h' h
            | some _ => rfl)
    | cons m ns => simp

theorem varArray_iff {v : V} (hl : Legal Γ nm v) (h : v.sparam 0 = none ∨ v.size ≠ [1] ∨ v.explicit = true) :
    varArray v = true ↔ IsArray v := by
  rw [← portArray_iff hl]
  simp only [portArray, varArray, Bool.or_eq_true, decide_eq_true_eq]
  constructor
  · exact Or.inl
  · rintro (h' | h')
    · exact h'
    · rcases h with h | h | h
      · rw [h] at h'; cases h'
      · have := (portArray_iff hl).2 (Or.inl h)
        cases hs : v.size with
        | nil => exact absurd hs hl.nonempty
        | cons n ns =>
          have hn := (hl.size n (by simp [hs])).1
          cases ns with
          | nil =>
            have : n ≠ 1 := by intro e; subst e; exact h hs
            exact Or.inl (Or.inl (by simp; omega))
          | cons m ns => exact Or.inl (Or.inr (by simp))
      · exact Or.inr h

theorem packed_true {v : V} (h : v.isPacked = true) : Packed v := by
  cases hk : v.kind <;> simp [V.isPacked, hk] at h <;> simp [Packed, hk, h]

theorem packed_false {v : V} (h : v.isPacked = false) : ¬ Packed v := by
  cases hk : v.kind <;> simp [V.isPacked, hk] at h <;> simp [Packed, hk, h]

theorem name_kw {s : List Char} (h : UserName s) : s ∉ keywords := h.2

theorem strip_empty {b : List Piece} (h : b = [] ∨ ∃ r, b = .sym ['['] :: r) : b.isEmpty = true → strip b = [] := by
  rcases h with rfl | ⟨r, rfl⟩
  · exact fun _ => rfl
  · intro h; cases h

theorem size_ne {v : V} (hl : Legal Γ nm v) : strip (sizeText nm v) ≠ [] := by
  unfold sizeText
  cases hs : v.size with
  | nil => exact absurd hs hl.nonempty
  | cons n ns =>
    simp only [sizeFrom]
    cases v.sparam 0 with
    | none => simp [numDim]
    | some e =>
      obtain ⟨r, hr⟩ := open_dim (nm := nm) e
      simp [hr]

theorem portType_ok {v : V} (hl : Legal Γ nm v) (he : ∀ t, v.kind = .enum t → v.raw = none) :
    IsIdent (portType v) ∧ (portType v = kLogic ∨ portType v ∉ keywords ∧ v.signed = false) ∧ TypeIs v (portType v) := by
  have hsg := hl.signed
  have hlog : IsIdent kLogic := ident_kw (by simp [kLogic, keywords])
  cases hk : v.kind with
  | plain =>
    cases hr : v.raw with
    | none =>
      have e : portType v = kLogic := by simp [portType, hk, hr]
      rw [e]
      exact ⟨hlog, Or.inl rfl, by simp [TypeIs, hk, hr, kLogic]⟩
    | some t =>
      have e : portType v = t := by simp [portType, hk, hr]
      rw [e]
      refine ⟨(hl.raw t hr).1, Or.inr ⟨(hl.raw t hr).2, ?_⟩, by simp [TypeIs, hr]⟩
      cases hs : v.signed with
      | false => rfl
      | true => have := (hsg hs).2; rw [hr] at this; cases this
  | struct t =>
    have hs : v.signed = false := by
      cases hs : v.signed with
      | false => rfl
      | true => have := (hsg hs).1; rw [hk] at this; cases this
    cases hr : v.raw with
    | none =>
      have e : portType v = t := by simp [portType, hk, hr]
      rw [e]
      exact ⟨(hl.struct t hk).1, Or.inr ⟨(hl.struct t hk).2, hs⟩, by simp [TypeIs, hk, hr]⟩
    | some r =>
      have e : portType v = r := by simp [portType, hk, hr]
      rw [e]
      exact ⟨(hl.raw r hr).1, Or.inr ⟨(hl.raw r hr).2, hs⟩, by simp [TypeIs, hr]⟩
  | enum t =>
    have hs : v.signed = false := by
      cases hs : v.signed with
      | false => rfl
      | true => have := (hsg hs).1; rw [hk] at this; cases this
    have hr := he t hk
    have e : portType v = t := by simp [portType, hk]
    rw [e]
    exact ⟨(hl.enum t hk).1, Or.inr ⟨(hl.enum t hk).2, hs⟩, by simp [TypeIs, hk, hr]⟩

/-- The pieces of the width as a port shows it. -/
def portBits (nm : VarId → List Char) (v : V) : List Piece :=
  if v.isPlain && v.raw.isNone then widthText nm v else []

theorem portBits_ok {v : V} (hl : Legal Γ nm v) (ht : ∀ e, v.wparam = some e → Tight e) :
    ∃ f, Rg Γ (fun σ => Values σ v) (strip (portBits nm v)) f ∧ ∀ σ, Bits σ v (f σ) := by
  by_cases h : v.kind = .plain ∧ v.raw = none
  · have e : portBits nm v = widthText nm v := by simp [portBits, V.isPlain, h.1, h.2]
    rw [e]
    exact rg_width hl h.1 h.2 ht
  · have e : portBits nm v = [] := by
      unfold portBits
      split
      · rename_i h'
        simp only [Bool.and_eq_true, Option.isNone_iff_eq_none, V.isPlain] at h'
        exact absurd ⟨by cases hk : v.kind <;> simp [hk] at h' ⊢, h'.2⟩ h
      · rfl
    rw [e]
    exact ⟨fun _ => [], rg_nil _, fun σ => by
      unfold Bits
      rw [if_neg (fun h' => h ⟨h'.2, h'.1⟩)]⟩

/-- C104 for ports: proved when the expression of a parametrised width binds at least as tightly
as the subtraction that is printed behind it. -/
theorem port_text_partial (Γ : Env) (nm : VarId → List Char) (d : Dir) (v : V) (hl : Legal Γ nm v)
    (he : ∀ t, v.kind = .enum t → v.raw = none) (ht : ∀ e, v.wparam = some e → Tight e) :
    ∃ s, Declares Γ (portText nm d v) s ∧ ∀ σ, Values σ v → Says σ (some d) v s := by
  obtain ⟨hti, htk, htt⟩ := portType_ok hl he
  obtain ⟨f, hf, hfb⟩ := portBits_ok hl ht
  have hbits : ((if v.isPlain && v.raw.isNone && !(widthText nm v).isEmpty then [widthText nm v] else []).map strip).flatten =
      strip (portBits nm v) := by
    unfold portBits
    cases h1 : v.isPlain && v.raw.isNone with
    | false => simp
    | true =>
      cases h2 : (widthText nm v).isEmpty with
      | true => simp [strip_empty (width_head v) h2]
      | false => simp
  have hlex : ∀ w ∈ portWords nm d v, LexOk w := by
    have h1 : LexOk (sizeText nm v) := lexok_size v.sparam hl.sparam v.size 0
    have h2 : LexOk (widthText nm v) := lexok_width hl.wparam
    have h3 : LexOk [.id (dirText d)] := lexok_id (ident_kw (dirText_kw d))
    have h4 : LexOk [.id (portType v)] := lexok_id hti
    have h5 : LexOk [.id kSigned] := lexok_id (ident_kw kSigned_kw)
    have h6 : LexOk [.id v.name] := lexok_id hl.name.1
    have opt : ∀ (b : Bool) (x w : List Piece), LexOk x → w ∈ (if b then [x] else []) → LexOk w := by
      intro b x w hx hw
      cases b with
      | false => simp at hw
      | true => simp at hw; rw [hw]; exact hx
    intro w hw
    simp only [portWords, List.mem_append, List.mem_cons, List.not_mem_nil, or_false] at hw
    rcases hw with (((((rfl | rfl) | hw) | hw) | hw) | rfl) | hw
    · exact h3
    · exact h4
    · exact opt _ _ _ h5 hw
    · exact opt _ _ _ h1 hw
    · exact opt _ _ _ h2 hw
    · exact h6
    · exact opt _ _ _ h1 hw
  have harr := portArray_iff hl
  have hsg : ((if v.signed then [[Piece.id kSigned]] else []).map strip).flatten = if v.signed then [.id kSigned] else [] := by
    cases v.signed <;> rfl
  by_cases ha : IsArray v
  · have hp := harr.2 ha
    cases hpk : v.isPacked with
    | true =>
      obtain ⟨xs, ys, h1, h2, h3, h4, h5⟩ := declares_of (Γ := Γ) (C := fun σ => Values σ v) (some d) (t := portType v)
        (name := v.name) (sg := v.signed) (tA := strip (sizeText nm v) ++ strip (portBits nm v)) (tB := [])
        (ws := portWords nm d v) hlex (by
          simp only [portWords, List.map_append, List.flatten_append, hsg, hbits]
          simp [hp, hpk, dirToks]) (name_kw hl.name) htk
        (rg_both hl hf v.size 0 hl.size) (rg_nil _)
      refine ⟨_, h5, fun σ hσ => ⟨rfl, htt, rfl, rfl, f σ, hfb σ, Or.inl ⟨ha, packed_true hpk, h1 σ hσ, h4 rfl⟩⟩⟩
    | false =>
      obtain ⟨xs, ys, h1, h2, h3, h4, h5⟩ := declares_of (Γ := Γ) (C := fun σ => Values σ v) (some d) (t := portType v)
        (name := v.name) (sg := v.signed) (tA := strip (portBits nm v)) (tB := strip (sizeText nm v))
        (ws := portWords nm d v) hlex (by
          simp only [portWords, List.map_append, List.flatten_append, hsg, hbits]
          simp [hp, hpk, dirToks]) (name_kw hl.name) htk hf (rg_dims hl)
      refine ⟨_, h5, fun σ hσ => ⟨rfl, htt, rfl, rfl, f σ, hfb σ, Or.inr (Or.inl ⟨ha, packed_false hpk, h1 σ hσ, h2 σ hσ⟩)⟩⟩
  · have hp : portArray v = false := by
      cases h : portArray v with
      | false => rfl
      | true => exact absurd (harr.1 h) ha
    obtain ⟨xs, ys, h1, h2, h3, h4, h5⟩ := declares_of (Γ := Γ) (C := fun σ => Values σ v) (some d) (t := portType v)
        (name := v.name) (sg := v.signed) (tA := strip (portBits nm v)) (tB := [])
        (ws := portWords nm d v) hlex (by
          simp only [portWords, List.map_append, List.flatten_append, hsg, hbits]
          simp [hp, dirToks]) (name_kw hl.name) htk hf (rg_nil _)
    exact ⟨_, h5, fun σ hσ => ⟨rfl, htt, rfl, rfl, f σ, hfb σ, Or.inr (Or.inr ⟨ha, h1 σ hσ, h4 rfl⟩)⟩⟩

/-- What `get_var_decl` handles: no type parameter; a one-element dimension given by a parameter
is marked as an array; a parametrised width belongs to a `logic` and binds at least as tightly as
a subtraction; no array of an enumeration. -/
structure Plain (v : V) : Prop where
  raw : v.raw = none
  one : v.sparam 0 = none ∨ v.size ≠ [1] ∨ v.explicit = true
  tight : ∀ e, v.wparam = some e → v.kind = .plain ∧ Tight e
  enum : ∀ t, v.kind = .enum t → ¬ IsArray v

theorem varBits_ok {v : V} (hl : Legal Γ nm v) (hp : Plain v) (he : v.isEnum = false) :
    ∃ f, Rg Γ (fun σ => Values σ v) (strip (widthText nm v)) f ∧ ∀ σ, Bits σ v (f σ) := by
  cases hk : v.kind with
  | plain => exact rg_width hl hk hp.raw fun e h => (hp.tight e h).2
  | enum t => simp [V.isEnum, hk] at he
  | struct t =>
    have hw : v.wparam = none := by
      cases h : v.wparam with
      | none => rfl
      | some e => have := (hp.tight e h).1; rw [hk] at this; cases this
    have : widthText nm v = [] := by simp [widthText, hw, V.isStruct, hk]
    rw [this]
    exact ⟨fun _ => [], rg_nil _, fun σ => by simp [Bits, hk]⟩

theorem varType_ok {v : V} (hl : Legal Γ nm v) (hp : Plain v) :
    IsIdent (varType v) ∧ (varType v = kLogic ∨ varType v ∉ keywords ∧ v.signed = false) ∧ TypeIs v (varType v) := by
  have h := portType_ok hl fun t _ => hp.raw
  have e : varType v = portType v := by cases hk : v.kind <;> simp [varType, portType, hk, hp.raw]
  rw [e]
  exact h

/-- C104 for variables. -/
theorem var_text_partial (Γ : Env) (nm : VarId → List Char) (v : V) (hl : Legal Γ nm v) (hp : Plain v) :
    ∃ s, Declares Γ (varText nm v) s ∧ ∀ σ, Values σ v → Says σ none v s := by
  obtain ⟨hti, htk, htt⟩ := varType_ok hl hp
  have h1 : LexOk (sizeText nm v) := lexok_size v.sparam hl.sparam v.size 0
  have h2 : LexOk (widthText nm v) := lexok_width hl.wparam
  have h4 : LexOk [.id (varType v)] := lexok_id hti
  have h5 : LexOk [.id kSigned] := lexok_id (ident_kw kSigned_kw)
  have h6 : LexOk [.id v.name] := lexok_id hl.name.1
  have h7 : LexOk (sizeText nm v ++ widthText nm v) := lexok_append (render_open (width_head v)) h1 h2
  have hlex : ∀ w ∈ varWords nm v, LexOk w := by
    have opt : ∀ (b : Bool) (x w : List Piece), LexOk x → w ∈ (if b then [x] else []) → LexOk w := by
      intro b x w hx hw
      cases b with
      | false => simp at hw
      | true => simp at hw; rw [hw]; exact hx
    intro w hw
    simp only [varWords, List.mem_append, List.mem_cons, List.not_mem_nil, or_false] at hw
    rcases hw with (rfl | hw) | hw
    · exact h4
    · exact opt _ _ _ h5 hw
    · split at hw
      · split at hw
        · simp only [List.mem_cons, List.not_mem_nil, or_false] at hw
          rcases hw with rfl | rfl
          · exact h7
          · exact h6
        · simp only [List.mem_append, List.mem_cons, List.not_mem_nil, or_false] at hw
          rcases hw with hw | rfl | rfl
          · split at hw
            · simp at hw
            · simp only [List.mem_cons, List.not_mem_nil, or_false] at hw; rw [hw]; exact h2
          · exact h6
          · exact h1
      · simp only [List.mem_append, List.mem_cons, List.not_mem_nil, or_false] at hw
        rcases hw with hw | rfl
        · exact opt _ _ _ h2 hw
        · exact h6
  have harr := varArray_iff hl hp.one
  have hsg : ((if v.signed then [[Piece.id kSigned]] else []).map strip).flatten = if v.signed then [.id kSigned] else [] := by
    cases v.signed <;> rfl
  by_cases ha : IsArray v
  · have hpa := harr.2 ha
    have hen : v.isEnum = false := by
      cases hk : v.kind with
      | enum t => exact absurd ha (hp.enum t hk)
      | _ => simp [V.isEnum, hk]
    obtain ⟨f, hf, hfb⟩ := varBits_ok hl hp hen
    cases hpk : v.isPacked with
    | true =>
      obtain ⟨xs, ys, h1, h2, h3, h4, h5⟩ := declares_of (Γ := Γ) (C := fun σ => Values σ v) none (t := varType v)
        (name := v.name) (sg := v.signed) (tA := strip (sizeText nm v) ++ strip (widthText nm v)) (tB := [])
        (ws := varWords nm v) hlex (by
          simp only [varWords, List.map_append, List.flatten_append, hsg]
          simp [hpa, hpk, dirToks, strip_append]) (name_kw hl.name) htk
        (rg_both hl hf v.size 0 hl.size) (rg_nil _)
      refine ⟨_, h5, fun σ hσ => ⟨rfl, htt, rfl, rfl, f σ, hfb σ, Or.inl ⟨ha, packed_true hpk, h1 σ hσ, h4 rfl⟩⟩⟩
    | false =>
      obtain ⟨xs, ys, h1, h2, h3, h4, h5⟩ := declares_of (Γ := Γ) (C := fun σ => Values σ v) none (t := varType v)
        (name := v.name) (sg := v.signed) (tA := strip (widthText nm v)) (tB := strip (sizeText nm v))
        (ws := varWords nm v) hlex (by
          have e : ((if (widthText nm v).isEmpty then [] else [widthText nm v]).map strip).flatten = strip (widthText nm v) := by
            cases h2 : (widthText nm v).isEmpty with
            | true => simp [strip_empty (width_head v) h2]
            | false => simp
          simp only [varWords, hpa, hpk, Bool.false_eq_true, if_true, if_false, List.map_append, List.flatten_append, hsg, e]
          simp [dirToks]) (name_kw hl.name) htk hf (rg_dims hl)
      refine ⟨_, h5, fun σ hσ => ⟨rfl, htt, rfl, rfl, f σ, hfb σ, Or.inr (Or.inl ⟨ha, packed_false hpk, h1 σ hσ, h2 σ hσ⟩)⟩⟩
  · have hpa : varArray v = false := by
      cases h : varArray v with
      | false => rfl
      | true => exact absurd (harr.1 h) ha
    cases hen : v.isEnum with
    | true =>
      obtain ⟨xs, ys, h1, h2, h3, h4, h5⟩ := declares_of (Γ := Γ) (C := fun σ => Values σ v) none (t := varType v)
        (name := v.name) (sg := v.signed) (tA := []) (tB := [])
        (ws := varWords nm v) hlex (by
          simp only [varWords, List.map_append, List.flatten_append, hsg]
          simp [hpa, hen, dirToks]) (name_kw hl.name) htk (rg_nil _) (rg_nil _)
      refine ⟨_, h5, fun σ hσ => ⟨rfl, htt, rfl, rfl, [], ?_, Or.inr (Or.inr ⟨ha, h1 σ hσ, h4 rfl⟩)⟩⟩
      unfold Bits
      rw [if_neg]
      rintro ⟨_, hk⟩
      simp [V.isEnum, hk] at hen
    | false =>
      obtain ⟨f, hf, hfb⟩ := varBits_ok hl hp hen
      obtain ⟨xs, ys, h1, h2, h3, h4, h5⟩ := declares_of (Γ := Γ) (C := fun σ => Values σ v) none (t := varType v)
        (name := v.name) (sg := v.signed) (tA := strip (widthText nm v)) (tB := [])
        (ws := varWords nm v) hlex (by
          have e : ((if !(widthText nm v).isEmpty && !false then [widthText nm v] else []).map strip).flatten = strip (widthText nm v) := by
            cases h2 : (widthText nm v).isEmpty with
            | true => simp [strip_empty (width_head v) h2]
            | false => simp
          simp only [varWords, hpa, hen, Bool.false_eq_true, if_false, List.map_append, List.flatten_append, hsg, e]
          simp [dirToks]) (name_kw hl.name) htk hf (rg_nil _)
      exact ⟨_, h5, fun σ hσ => ⟨rfl, htt, rfl, rfl, f σ, hfb σ, Or.inr (Or.inr ⟨ha, h1 σ hσ, h4 rfl⟩)⟩⟩

/-! ## Concrete cases -/

def nm2 : VarId → List Char
  | 0 => ['P'] | _ => ['Q']
def env2 : Env
  | ['P'] => some (0, 32) | ['Q'] => some (1, 32) | _ => none
def vp : Expr := .var 0 32
def vq : Expr := .var 1 32

theorem ident2 (v : VarId) : IsIdent (nm2 v) := by
  match v with
  | 0 => exact ⟨⟨'P', [], rfl, by decide⟩, by simp [nm2]; decide⟩
  | n + 1 => exact ⟨⟨'Q', [], rfl, by decide⟩, by simp [nm2]; decide⟩

theorem okay_p : Okay env2 nm2 vp := ⟨by simp [vp, Expr.WF], rfl, ⟨ident2 0, rfl⟩, trivial⟩
theorem okay_add : Okay env2 nm2 (.bin .add vp vq) :=
  ⟨by simp [vp, vq, Expr.WF, Expr.width], rfl, ⟨⟨ident2 0, rfl⟩, ⟨ident2 1, rfl⟩⟩, ⟨trivial, trivial, by simp [assocOp]⟩⟩
theorem okay_shl : Okay env2 nm2 (.bin .shl vp vq) :=
  ⟨by simp [vp, vq, Expr.WF, Expr.width], rfl, ⟨⟨ident2 0, rfl⟩, ⟨ident2 1, rfl⟩⟩, ⟨trivial, trivial, fun _ => rfl⟩⟩

/-- `x`, eight bits. -/
def base : V := ⟨['x'], .plain, false, false, false, 8, [1], none, fun _ => none, none⟩

theorem name_x : UserName ['x'] := ⟨⟨⟨'x', [], rfl, by decide⟩, by decide⟩, by decide⟩
theorem name_t : UserName ['t'] := ⟨⟨⟨'t', [], rfl, by decide⟩, by decide⟩, by decide⟩

/-- A signed array of `[P << Q][3]` words of `P + Q` bits. -/
def sample : V := { base with signed := true, size := [4, 3], wparam := some (.bin .add vp vq),
                              sparam := fun i => if i = 0 then some (.bin .shl vp vq) else none }

theorem legal_of (v : V) (hn : v.name = ['x']) (hk : v.kind = .plain ∨ v.kind = .struct ['t'] ∨ v.kind = .enum ['t'])
    (hr : ∀ t, v.raw = some t → t = ['t']) (hw : 0 < v.width ∧ v.width < 100)
    (hs : v.size ≠ [] ∧ ∀ n ∈ v.size, 0 < n ∧ n < 100) (h1 : ∀ e, v.wparam = some e → Okay env2 nm2 e)
    (h2 : ∀ i e, v.sparam i = some e → Okay env2 nm2 e) (h3 : v.signed = true → v.kind = .plain ∧ v.raw = none) :
    Legal env2 nm2 v where
  name := hn ▸ name_x
  struct := fun t h => by rcases hk with e | e | e <;> rw [e] at h <;> cases h; exact name_t
  enum := fun t h => by rcases hk with e | e | e <;> rw [e] at h <;> cases h; exact name_t
  raw := fun t h => hr t h ▸ name_t
  width := ⟨hw.1, by have := hw.2; omega⟩
  nonempty := hs.1
  size := fun n hn => ⟨(hs.2 n hn).1, by have := (hs.2 n hn).2; omega⟩
  wparam := h1
  sparam := h2
  signed := h3

theorem legal_sample : Legal env2 nm2 sample := by
  refine legal_of _ rfl (Or.inl rfl) nofun (by decide) (by decide) ?_ ?_ fun _ => ⟨rfl, rfl⟩
  · intro e h; cases h; exact okay_add
  · intro i e h
    simp only [sample] at h
    split at h
    · cases h; exact okay_shl
    · cases h

example : Legal env2 nm2 sample ∧ (∀ t, sample.kind = .enum t → sample.raw = none) ∧
    (∀ e, sample.wparam = some e → Tight e) ∧ Plain sample := by
  refine ⟨legal_sample, nofun, fun e h => by cases h; simp [Tight], ⟨rfl, Or.inr (Or.inl (by decide)), ?_, nofun⟩⟩
  intro e h; cases h; exact ⟨rfl, by simp [Tight]⟩

example : String.ofList (portText nm2 .input sample) = "input logic signed [P + Q-1:0] x [(P << Q)-1:0][2:0]" := by decide +kernel
example : String.ofList (varText nm2 { sample with packed := true }) = "logic signed [(P << Q)-1:0][2:0][P + Q-1:0] x" := by decide +kernel

/-! ## Where the declaration says something else -/

/-- The width `P << Q` is printed `[P << Q-1:0]`, which is a shift by `Q - 1`. -/
def shifted : V := { base with wparam := some (.bin .shl vp vq) }

theorem legal_shifted : Legal env2 nm2 shifted :=
  legal_of _ rfl (Or.inl rfl) nofun (by decide) (by decide) (fun e h => by cases h; exact okay_shl) nofun nofun

theorem shifted_text : String.ofList (portText nm2 .input shifted) = "input logic [P << Q-1:0] x" := by decide +kernel

/-- The bound that the text has. -/
def wrongBound : Expr := .bin .shl vp (.bin .minus vq (.const 32 (1 % 2 ^ 32 : Nat)))

theorem shifted_range : R1 env2 (fun _ => True) (strip (.sym ['['] :: (pr nm2 .top (.bin .shl vp vq) ++ minus1)))
    fun σ => wrongBound.eval σ + 1 := by
  refine ⟨⟨_, rfl⟩, fun rest => ⟨(wrongBound, .const 32 0), fun σ _ => count_zero σ _, ?_⟩⟩
  have hQ := unary_id (Γ := env2) (s := ['Q']) (v := 1) (w := 32) rfl
    (ts := .sym ['-'] :: .dec 1 :: .sym [':'] :: .dec 0 :: .sym [']'] :: rest) (pSelect_none (noSel_minus _))
  have hq := bin_of_unary hQ (loop_minus (m := 9) (by decide) (.var 1 32) (.dec 0 :: .sym [']'] :: rest))
  have hs := loop_step (op := .shl) (e := .var 0 32) (m := 1) (by decide) hq
    (loop_stop (endE_colon (.dec 0 :: .sym [']'] :: rest)).2.1)
  have hp := expr_of_bin (bin_of_unary (unary_id (Γ := env2) (s := ['P']) (v := 0) (w := 32) rfl
    (pSelect_none (binStr_noSel .shl _))) hs) (endE_colon _).2.2
  obtain ⟨N, hN⟩ := range_of (Γ := env2) (ts := [.id ['P'], .sym (binStr .shl), .id ['Q'], .sym ['-'], .dec 1]) hp
  exact ⟨N, fun n hn => hN n hn⟩

theorem shifted_reads : ∃ xs, (∀ σ, xs.map (count σ) = [wrongBound.eval σ + 1]) ∧
    Declares env2 (portText nm2 .input shifted) ⟨some .input, kLogic, false, xs, ['x'], []⟩ := by
  obtain ⟨xs, ys, h1, h2, h3, h4, h5⟩ := declares_of (Γ := env2) (C := fun _ => True) (some .input) (t := kLogic)
    (name := ['x']) (sg := false) (tB := []) (ws := portWords nm2 .input shifted) (by
      intro w hw
      have e : portWords nm2 .input shifted = [[.id (dirText .input)], [.id kLogic],
        .sym ['['] :: (pr nm2 .top (.bin .shl vp vq) ++ minus1), [.id ['x']]] := by
        rfl
      rw [e] at hw
      simp only [List.mem_cons, List.not_mem_nil, or_false] at hw
      rcases hw with rfl | rfl | rfl | rfl
      · exact lexok_id (ident_kw (dirText_kw _))
      · exact lexok_id (ident_kw (by simp [kLogic, keywords]))
      · exact lexok_bare okay_shl
      · exact lexok_id name_x.1) (by rfl) name_x.2 (Or.inl rfl) (rg_one shifted_range) (rg_nil _)
  rw [h4 rfl] at h5
  exact ⟨xs, fun σ => h1 σ trivial, h5⟩

theorem shift_wrong : Legal env2 nm2 shifted ∧
    ¬ ∃ s, Declares env2 (portText nm2 .input shifted) s ∧ ∀ σ, Values σ shifted → Says σ (some .input) shifted s := by
  refine ⟨legal_shifted, ?_⟩
  rintro ⟨s, hs, h⟩
  obtain ⟨xs, hxs, hr⟩ := shifted_reads
  have e := declares_unique hs hr
  subst e
  have hv : Values (fun _ => 2) shifted := by
    refine ⟨?_, nofun⟩
    intro e he
    cases he
    simp [vp, vq, Expr.eval, BinOp.sem, Expr.width]
  obtain ⟨_, _, _, _, bits, hb, hc⟩ := h _ hv
  have hb' : bits = [8] := by
    simpa [Bits, shifted, base, vp, vq, Expr.eval, BinOp.sem, Expr.width] using hb
  subst hb'
  have ha : ¬ IsArray shifted := by simp [IsArray, shifted, base]
  rcases hc with ⟨h, _⟩ | ⟨h, _⟩ | ⟨_, h, _⟩
  · exact ha h
  · exact ha h
  · rw [hxs] at h
    simp [wrongBound, vp, vq, Expr.eval, BinOp.sem, Expr.width, pattern] at h

theorem not_PortClaim : ¬ PortClaim := fun h => shift_wrong.2 (h env2 nm2 .input shifted legal_shifted nofun)

/-- A variable of which a parameter gives the length, at present 1: its declaration has no
dimension. -/
def lone : V := { base with sparam := fun i => if i = 0 then some vp else none }

theorem legal_base : Legal env2 nm2 base :=
  legal_of _ rfl (Or.inl rfl) nofun (by decide) (by decide) nofun nofun nofun

theorem legal_lone : Legal env2 nm2 lone := by
  refine legal_of _ rfl (Or.inl rfl) nofun (by decide) (by decide) nofun ?_ nofun
  intro i e h
  simp only [lone] at h
  split at h
  · cases h; exact okay_p
  · cases h

theorem plain_base : Plain base := ⟨rfl, Or.inl rfl, nofun, nofun⟩
theorem values_base (σ : Store) : Values σ base := ⟨nofun, nofun⟩
theorem base_not_array : ¬ IsArray base := by simp [IsArray, base]

theorem lone_wrong : Legal env2 nm2 lone ∧ Plain { lone with explicit := true } ∧ varText nm2 lone = varText nm2 base ∧
    ¬ ∃ s, Declares env2 (varText nm2 lone) s ∧ ∀ σ, Values σ lone → Says σ none lone s := by
  have ht : varText nm2 lone = varText nm2 base := rfl
  refine ⟨legal_lone, ⟨rfl, Or.inr (Or.inr rfl), nofun, nofun⟩, ht, ?_⟩
  rintro ⟨s, hs, h⟩
  obtain ⟨s', hs', h'⟩ := var_text_partial env2 nm2 base legal_base plain_base
  rw [ht] at hs
  have e := declares_unique hs hs'
  subst e
  have hv : Values (fun _ => 4) lone := by
    refine ⟨nofun, ?_⟩
    intro i e he
    simp only [lone] at he
    split at he
    · cases he; simp [vp, Expr.eval]
    · cases he
  have ha : IsArray lone := Or.inr (Or.inr ⟨0, by simp [lone, base], by simp [lone]⟩)
  obtain ⟨_, _, _, _, bits, _, hc⟩ := h _ hv
  obtain ⟨_, _, _, _, bits', _, hc'⟩ := h' _ (values_base fun _ => 4)
  have hu : s.unpacked = [] := by
    rcases hc' with ⟨h, _⟩ | ⟨h, _⟩ | ⟨_, _, h⟩
    · exact absurd h base_not_array
    · exact absurd h base_not_array
    · exact h
  rcases hc with ⟨_, h, _⟩ | ⟨_, _, _, h⟩ | ⟨h, _⟩
  · simp [Packed, lone, base] at h
  · rw [hu] at h
    simp [dims, lone, base] at h
  · exact h ha

/-- A variable whose type is a parameter is declared `logic`. -/
def typed : V := { base with raw := some ['t'] }

theorem raw_wrong : Legal env2 nm2 typed ∧ varText nm2 typed = varText nm2 base ∧
    ¬ ∃ s, Declares env2 (varText nm2 typed) s ∧ ∀ σ, Values σ typed → Says σ none typed s := by
  have ht : varText nm2 typed = varText nm2 base := rfl
  have hl : Legal env2 nm2 typed :=
    legal_of _ rfl (Or.inl rfl) (fun t h => by cases h; rfl) (by decide) (by decide) nofun nofun nofun
  refine ⟨hl, ht, ?_⟩
  rintro ⟨s, hs, h⟩
  obtain ⟨s', hs', h'⟩ := var_text_partial env2 nm2 base legal_base plain_base
  rw [ht] at hs
  have e := declares_unique hs hs'
  subst e
  have h1 := (h (fun _ => 4) ⟨nofun, nofun⟩).2.1
  have h2 := (h' (fun _ => 4) (values_base _)).2.1
  simp only [TypeIs, typed] at h1
  simp only [TypeIs, base] at h2
  rw [h1] at h2
  cases h2

/-- An array of an enumeration gets its width as one more dimension. -/
def colors : V := { base with kind := .enum ['t'], width := 2, size := [4], packed := true }
/-- The same text, from an array of arrays. -/
def nested : V := { base with kind := .struct ['t'], width := 2, size := [4, 2], packed := true }

theorem enum_wrong : Legal env2 nm2 colors ∧ varText nm2 colors = varText nm2 nested ∧
    ¬ ∃ s, Declares env2 (varText nm2 colors) s ∧ ∀ σ, Values σ colors → Says σ none colors s := by
  have ht : varText nm2 colors = varText nm2 nested := rfl
  have hl : Legal env2 nm2 colors :=
    legal_of _ rfl (Or.inr (Or.inr rfl)) nofun (by decide) (by decide) nofun nofun nofun
  have hl' : Legal env2 nm2 nested :=
    legal_of _ rfl (Or.inr (Or.inl rfl)) nofun (by decide) (by decide) nofun nofun nofun
  have hp : Plain nested := ⟨rfl, Or.inl rfl, nofun, nofun⟩
  refine ⟨hl, ht, ?_⟩
  rintro ⟨s, hs, h⟩
  obtain ⟨s', hs', h'⟩ := var_text_partial env2 nm2 nested hl' hp
  rw [ht] at hs
  have e := declares_unique hs hs'
  subst e
  obtain ⟨_, _, _, _, bits, hb, hc⟩ := h (fun _ => 4) ⟨nofun, nofun⟩
  obtain ⟨_, _, _, _, bits', hb', hc'⟩ := h' (fun _ => 4) ⟨nofun, nofun⟩
  have e1 : bits = [] := by simpa [Bits, colors, base] using hb
  have e2 : bits' = [] := by simpa [Bits, nested, base] using hb'
  subst e1 e2
  have l1 : s.packed.length = 1 := by
    rcases hc with ⟨_, _, h, _⟩ | ⟨_, h, _⟩ | ⟨h, _⟩
    · have := congrArg List.length h; simpa [dims, colors] using this
    · exact absurd (Or.inr rfl) h
    · exact absurd (Or.inl (by simp [colors])) h
  have l2 : s.packed.length = 2 := by
    rcases hc' with ⟨_, _, h, _⟩ | ⟨_, h, _⟩ | ⟨h, _⟩
    · have := congrArg List.length h; simpa [dims, nested] using this
    · exact absurd (Or.inr rfl) h
    · exact absurd (Or.inl (by simp [nested])) h
  omega

theorem not_VarClaim : ¬ VarClaim := fun h => lone_wrong.2.2.2 (h env2 nm2 lone legal_lone nofun)

end Kratos.Decl
