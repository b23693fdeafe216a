import Verif.Base

/-!
# Hierarchical names of expressions

`handle_name` of a variable is modelled in `Verif.Misc.Handles` (C84).  Here is `handle_name` of
everything else a user can call it on: slices, elements chosen by a signal, casts, constants,
parameters, operators, concatenations, extensions, repetitions and conditionals
(`src/expr.cc:292-312, 582-592, 723-725, 1041-1059, 1265-1290, 1361-1363, 1394-1403, 1426-1476,
1804-1819`, `src/expr.hh:438-439`).

Every object carries its generator, as in the code.  The text of the index of a slice, of the target
of a cast and of a constant is an arbitrary text.  A recursion that never returns (and so overflows the
stack) is `Res.ub`.  Not modelled: the exceptions of an enumeration cast without a type and of an
unknown enumeration value.
-/

namespace Kratos.HExpr

abbrev Str := List Char

/-- `ExprOp` with its symbol (`ExprOpStr`, `src/expr.cc:23-37`).  Different operators may have the same
symbol. -/
structure Op where
  code : Nat
  sym : Str
  deriving DecidableEq

mutual
/-- The objects `handle_name` can be called on.  `g` is what `generator()` returns. -/
inductive E where
  | var (g : Nat) (name : Str)
  | param (g : Nat) (name : Str)
  | const (text : Str)
  | slice (g : Nat) (e : E) (sel : Str)
  | index (g : Nat) (e i : E)
  | cast (g : Nat) (type : Str) (e : E)
  | un (op : Op) (e : E)
  | bin (op : Op) (l r : E)
  | cat (es : Es)
  | ext (w : Str) (e : E)
  | dup (n : Str) (e : E)
  | cond (c l r : E)

inductive Es where
  | nil
  | cons (e : E) (es : Es)
end

/-- Where an expression is printed: on its own, or as an operand of an operator. -/
inductive Mode where
  | top
  | arg (code : Nat)

/-- The parentheses of `expr_to_string` (`src/expr.cc:1437-1466`): none at the top and none under the
same operator. -/
def paren (m : Mode) (code : Nat) (t : Str) : Str :=
  match m with
  | .top => t
  | .arg c => if c = code then t else '(' :: t ++ [')']

/-- `type() == VarType::Expression`. -/
def isExpr : E → Bool
  | .un _ _ | .bin _ _ _ | .cat _ | .ext _ _ | .dup _ _ | .cond _ _ _ => true
  | _ => false

def isCat : E → Bool
  | .cat _ => true
  | _ => false

/-- `string::join` with `", "`. -/
def commas : List Str → Str
  | [] => []
  | [a] => a
  | a :: b :: l => a ++ ',' :: ' ' :: commas (b :: l)

mutual
/-- `to_string` (`src/expr.cc:276, 582-592, 723-725, 1041-1059, 1265-1272, 1361-1363, 1394-1418,
1426-1468, 1804-1809`). -/
def text : Mode → E → Str
  | _, .var _ n => n
  | _, .param _ n => n
  | _, .const t => t
  | _, .slice _ e s => text .top e ++ s
  | _, .index _ e i => text .top e ++ '[' :: text .top i ++ [']']
  | _, .cast _ t e => t ++ '\'' :: '(' :: text .top e ++ [')']
  | m, .un op e => paren m op.code (op.sym ++ text (.arg op.code) e)
  | m, .bin op l r => paren m op.code
      (text (.arg op.code) l ++ ' ' :: op.sym ++ ' ' :: text (.arg op.code) r)
  | _, .cat es => '{' :: commas (texts es) ++ ['}']
  | _, .ext w e => w ++ '\'' :: '(' :: text .top e ++ [')']
  | _, .dup n e =>
      if isCat e then '{' :: n ++ text .top e ++ ['}']
      else '{' :: n ++ '{' :: text .top e ++ ['}', '}']
  | m, .cond c l r =>
      let t := (if isExpr c then '(' :: text .top c ++ [')'] else text .top c) ++
        ' ' :: '?' :: ' ' :: text .top l ++ ':' :: ' ' :: text .top r
      match m with
      | .top => t
      | .arg _ => '(' :: t ++ [')']

def texts : Es → List Str
  | .nil => []
  | .cons e es => text .top e :: texts es
end

/-- `Var::handle_name(bool)` (`src/expr.cc:292-298`); `hg`: the handle names of the generators, empty
for the top generator if it is to be ignored. -/
def qualify (hg : Nat → Str) (g : Nat) (t : Str) : Str :=
  if hg g ≠ [] then hg g ++ '.' :: t else t

mutual
/-- `handle_name(bool)`: `Var`'s (`src/expr.cc:292-298`) for variables, slices, elements and casts,
`Const`'s (`src/expr.hh:438`, also of parameters), `Expr`'s (`src/expr.cc:1470-1472` with
`src/expr.cc:1426-1466`), `VarConcat`'s (`src/expr.cc:1274-1281`) and `ConditionalExpr`'s
(`src/expr.cc:1811-1814`).  `VarExtend` and `VarDuplicated` have none: `Expr::handle_name` calls
`expr_to_string`, which calls `handle_name` of the same object (`src/expr.cc:1429-1432`). -/
def handle (hg : Nat → Str) : Mode → E → Res Str
  | _, .var g n => .ok (qualify hg g n)
  | _, .param _ n => .ok n
  | _, .const t => .ok t
  | _, .slice g e s => .ok (qualify hg g (text .top (.slice g e s)))
  | _, .index g e i => .ok (qualify hg g (text .top (.index g e i)))
  | _, .cast g t e => .ok (qualify hg g (text .top (.cast g t e)))
  | m, .un op e => (handle hg (.arg op.code) e).bind fun t => .ok (paren m op.code (op.sym ++ t))
  | m, .bin op l r =>
      (handle hg (.arg op.code) l).bind fun a =>
      (handle hg (.arg op.code) r).bind fun b =>
      .ok (paren m op.code (a ++ ' ' :: op.sym ++ ' ' :: b))
  | _, .cat es => (handles hg es).bind fun l => .ok ('{' :: commas l ++ ['}'])
  | _, .ext _ _ => .ub
  | _, .dup _ _ => .ub
  | m, .cond c l r =>
      (handle hg .top c).bind fun a =>
      (handle hg .top l).bind fun b =>
      (handle hg .top r).bind fun d =>
      let t := a ++ ' ' :: '?' :: ' ' :: b ++ ':' :: ' ' :: d
      match m with
      | .top => .ok t
      | .arg _ => .ok ('(' :: t ++ [')'])

def handles (hg : Nat → Str) : Es → Res (List Str)
  | .nil => .ok []
  | .cons e es => (handle hg .top e).bind fun a => (handles hg es).bind fun l => .ok (a :: l)
end

mutual
/-- `handle_name(Generator *)`: `Var`'s for variables, slices, elements and casts
(`src/expr.cc:300-312`; `rv g t`: the name of an object of generator `g` with the text `t`, or the
exception), `Const`'s (`src/expr.hh:439`), `VarConcat`'s (`src/expr.cc:1283-1290`), `ConditionalExpr`'s
(`src/expr.cc:1816-1819`) and `Expr`'s (`src/expr.cc:1474-1476`), which passes the scope as the
argument `ignore_top` of `expr_to_string`: that becomes `true`, the scope stays `nullptr`, and
`use_handle` is `false`. -/
def relative (rv : Nat → Str → Res Str) : E → Res Str
  | .var g n => rv g n
  | .param _ n => .ok n
  | .const t => .ok t
  | .slice g e s => rv g (text .top (.slice g e s))
  | .index g e i => rv g (text .top (.index g e i))
  | .cast g t e => rv g (text .top (.cast g t e))
  | .un op e => .ok (text .top (.un op e))
  | .bin op l r => .ok (text .top (.bin op l r))
  | .cat es => (relatives rv es).bind fun l => .ok ('{' :: commas l ++ ['}'])
  | .ext w e => .ok (text .top (.ext w e))
  | .dup n e => .ok (text .top (.dup n e))
  | .cond c l r =>
      (relative rv c).bind fun a =>
      (relative rv l).bind fun b =>
      (relative rv r).bind fun d =>
      .ok (a ++ ' ' :: '?' :: ' ' :: b ++ ':' :: ' ' :: d)

def relatives (rv : Nat → Str → Res Str) : Es → Res (List Str)
  | .nil => .ok []
  | .cons e es => (relative rv e).bind fun a => (relatives rv es).bind fun l => .ok (a :: l)
end

/-! ## Specification -/

mutual
/-- The same expression over signals called otherwise. -/
def rename (nm : Nat → Str → Str) : E → E
  | .var g n => .var g (nm g n)
  | .param g n => .param g (nm g n)
  | .const t => .const t
  | .slice g e s => .slice g (rename nm e) s
  | .index g e i => .index g (rename nm e) (rename nm i)
  | .cast g t e => .cast g t (rename nm e)
  | .un op e => .un op (rename nm e)
  | .bin op l r => .bin op (rename nm l) (rename nm r)
  | .cat es => .cat (renames nm es)
  | .ext w e => .ext w (rename nm e)
  | .dup n e => .dup n (rename nm e)
  | .cond c l r => .cond (rename nm c) (rename nm l) (rename nm r)

def renames (nm : Nat → Str → Str) : Es → Es
  | .nil => .nil
  | .cons e es => .cons (rename nm e) (renames nm es)
end

/-- The hierarchical name of a signal: the name of its generator, if there is one, a dot and its own
name. -/
def fullName (hg : Nat → Str) (g : Nat) (n : Str) : Str :=
  match hg g with
  | [] => n
  | c :: s => c :: s ++ ['.'] ++ n

/-- What a user expects of `handle_name(bool)`: the text of the expression with every signal under its
hierarchical name. -/
def HandleClaim : Prop :=
  ∀ (hg : Nat → Str) (e : E), handle hg .top e = .ok (text .top (rename (fullName hg) e))

/-- What a user expects of `handle_name(scope)`: the text of the expression with every signal under its
name in that scope, if all of them have one (`rel`). -/
def RelativeClaim : Prop :=
  ∀ (rel : Nat → Str) (e : E),
    relative (fun g n => .ok (fullName rel g n)) e = .ok (text .top (rename (fullName rel) e))

/-- The generator of a variable with slices, elements and members taken from it. -/
inductive Chain (g : Nat) : E → Prop
  | var (n : Str) : Chain g (.var g n)
  | slice {e : E} (s : Str) : Chain g e → Chain g (.slice g e s)
  | index {e : E} (t : Str) : Chain g e → Chain g (.index g e (.const t))

mutual
/-- The expressions whose hierarchical text is right: variables, slices and elements at constant
indices, constants, operators, concatenations, and conditionals whose condition is not itself an
expression. -/
inductive Fine : E → Prop
  | chain {g : Nat} {e : E} : Chain g e → Fine e
  | const (t : Str) : Fine (.const t)
  | un (op : Op) {e : E} : Fine e → Fine (.un op e)
  | bin (op : Op) {l r : E} : Fine l → Fine r → Fine (.bin op l r)
  | cat {es : Es} : Fines es → Fine (.cat es)
  | cond {c l r : E} : isExpr c = false → Fine c → Fine l → Fine r → Fine (.cond c l r)

inductive Fines : Es → Prop
  | nil : Fines .nil
  | cons {e : E} {es : Es} : Fine e → Fines es → Fines (.cons e es)
end

mutual
/-- The expressions whose text in a scope is right: as `Fine` without operators. -/
inductive Flat : E → Prop
  | chain {g : Nat} {e : E} : Chain g e → Flat e
  | const (t : Str) : Flat (.const t)
  | cat {es : Es} : Flats es → Flat (.cat es)
  | cond {c l r : E} : isExpr c = false → Flat c → Flat l → Flat r → Flat (.cond c l r)

inductive Flats : Es → Prop
  | nil : Flats .nil
  | cons {e : E} {es : Es} : Flat e → Flats es → Flats (.cons e es)
end

mutual
/-- An extension or a repetition is an operand somewhere (not below a slice, an element or a cast). -/
inductive Widens : E → Prop
  | ext (w : Str) (e : E) : Widens (.ext w e)
  | dup (n : Str) (e : E) : Widens (.dup n e)
  | un (op : Op) {e : E} : Widens e → Widens (.un op e)
  | left (op : Op) {l : E} (r : E) : Widens l → Widens (.bin op l r)
  | right (op : Op) (l : E) {r : E} : Widens r → Widens (.bin op l r)
  | cat {es : Es} : WidensIn es → Widens (.cat es)
  | test {c : E} (l r : E) : Widens c → Widens (.cond c l r)
  | yes (c : E) {l : E} (r : E) : Widens l → Widens (.cond c l r)
  | no (c l : E) {r : E} : Widens r → Widens (.cond c l r)

inductive WidensIn : Es → Prop
  | here {e : E} (es : Es) : Widens e → WidensIn (.cons e es)
  | there (e : E) {es : Es} : WidensIn es → WidensIn (.cons e es)
end

/-! ## Theorems -/

theorem qualify_eq (hg : Nat → Str) (g : Nat) (n : Str) : qualify hg g n = fullName hg g n := by
  unfold qualify fullName
  cases h : hg g with
  | nil => simp
  | cons c s => simp

theorem fullName_append (hg : Nat → Str) (g : Nat) (a b : Str) :
    fullName hg g (a ++ b) = fullName hg g a ++ b := by
  unfold fullName
  cases hg g <;> simp

theorem Chain.text {hg : Nat → Str} {g : Nat} {e : E} (h : Chain g e) :
    fullName hg g (text .top e) = HExpr.text .top (rename (fullName hg) e) := by
  induction h with
  | var n => simp [HExpr.text, rename]
  | slice s _ ih => simp [HExpr.text, rename, fullName_append, ih]
  | index t _ ih => simp [HExpr.text, rename, fullName_append, ih]

theorem Chain.handle {hg : Nat → Str} {g : Nat} {e : E} (h : Chain g e) (m : Mode) :
    HExpr.handle hg m e = .ok (HExpr.text m (rename (fullName hg) e)) := by
  have ht := h.text (hg := hg)
  cases h with
  | var n => simp [HExpr.handle, HExpr.text, rename, qualify_eq]
  | slice s _ => simp only [HExpr.handle, qualify_eq, ht]; simp [HExpr.text, rename]
  | index t _ => simp only [HExpr.handle, qualify_eq, ht]; simp [HExpr.text, rename]

theorem isExpr_rename (nm : Nat → Str → Str) (e : E) : isExpr (rename nm e) = isExpr e := by
  cases e <;> rfl

mutual
theorem handle_fine {hg : Nat → Str} {e : E} (h : Fine e) (m : Mode) :
    handle hg m e = .ok (text m (rename (fullName hg) e)) := by
  match h with
  | .chain h => exact h.handle m
  | .const t => simp [handle, text, rename]
  | .un op h => simp [handle, text, rename, handle_fine h]
  | .bin op h1 h2 => simp [handle, text, rename, handle_fine h1, handle_fine h2]
  | .cat h => simp [handle, text, rename, handles_fine h]
  | .cond hc h1 h2 h3 =>
    cases m <;>
      simp [handle, text, rename, isExpr_rename, hc, handle_fine h1, handle_fine h2, handle_fine h3]

theorem handles_fine {hg : Nat → Str} {es : Es} (h : Fines es) :
    handles hg es = .ok (texts (renames (fullName hg) es)) := by
  match h with
  | .nil => simp [handles, texts, renames]
  | .cons h1 h2 => simp [handles, texts, renames, handle_fine h1, handles_fine h2]
end

/-- The hierarchical text of an expression of variables, slices at constant indices, constants,
operators, concatenations and conditionals over plain conditions is its text with every signal under
its hierarchical name. -/
theorem handle_partial {e : E} (h : Fine e) (hg : Nat → Str) :
    handle hg .top e = .ok (text .top (rename (fullName hg) e)) := handle_fine h .top

mutual
theorem relative_flat {rel : Nat → Str} {e : E} (h : Flat e) :
    relative (fun g n => .ok (fullName rel g n)) e = .ok (text .top (rename (fullName rel) e)) := by
  match h with
  | .chain h =>
    have ht := h.text (hg := rel)
    cases h with
    | var n => simp [relative, text, rename]
    | slice s _ => simp only [relative, ht]
    | index t _ => simp only [relative, ht]
  | .const t => simp [relative, text, rename]
  | .cat h => simp [relative, text, rename, relatives_flat h]
  | .cond hc h1 h2 h3 =>
    simp [relative, text, rename, isExpr_rename, hc, relative_flat h1, relative_flat h2,
      relative_flat h3]

theorem relatives_flat {rel : Nat → Str} {es : Es} (h : Flats es) :
    relatives (fun g n => .ok (fullName rel g n)) es = .ok (texts (renames (fullName rel) es)) := by
  match h with
  | .nil => simp [relatives, texts, renames]
  | .cons h1 h2 => simp [relatives, texts, renames, relative_flat h1, relatives_flat h2]
end

/-- The text in a scope of a signal, of a slice at constant indices, of a concatenation and of a
conditional over a plain condition has every signal under its name in that scope. -/
theorem relative_partial {e : E} (h : Flat e) (rel : Nat → Str) :
    relative (fun g n => .ok (fullName rel g n)) e = .ok (text .top (rename (fullName rel) e)) :=
  relative_flat h

/-- A concatenation or a conditional with an inaccessible signal is refused with the exception for
that signal. -/
theorem relative_cat_throw {rv : Nat → Str → Res Str} {e : E} {es : Es} {x : Err}
    (h : relative rv e = .throw x) : relative rv (.cat (.cons e es)) = .throw x := by
  simp [relative, relatives, h]

/-- The text in a scope of an operator, an extension or a repetition does not depend on the scope and
is never refused, whatever generators its signals are in. -/
theorem relative_operator (rv : Nat → Str → Res Str) (op : Op) (l r : E) (w : Str) :
    relative rv (.un op l) = .ok (text .top (.un op l)) ∧
    relative rv (.bin op l r) = .ok (text .top (.bin op l r)) ∧
    relative rv (.ext w l) = .ok (text .top (.ext w l)) ∧
    relative rv (.dup w l) = .ok (text .top (.dup w l)) := by
  refine ⟨?_, ?_, ?_, ?_⟩ <;> simp [relative]

theorem bind_ub {α β : Type} {x : Res α} {f : α → Res β} :
    x.bind f = .ub ↔ x = .ub ∨ ∃ a, x = .ok a ∧ f a = .ub := by
  cases x <;> simp

mutual
theorem handle_ok_or (hg : Nat → Str) : ∀ (m : Mode) (e : E),
    (∃ t, handle hg m e = .ok t) ∧ ¬ Widens e ∨ handle hg m e = .ub ∧ Widens e
  | _, .var _ _ => .inl ⟨⟨_, rfl⟩, nofun⟩
  | _, .param _ _ => .inl ⟨⟨_, rfl⟩, nofun⟩
  | _, .const _ => .inl ⟨⟨_, rfl⟩, nofun⟩
  | _, .slice _ _ _ => .inl ⟨⟨_, rfl⟩, nofun⟩
  | _, .index _ _ _ => .inl ⟨⟨_, rfl⟩, nofun⟩
  | _, .cast _ _ _ => .inl ⟨⟨_, rfl⟩, nofun⟩
  | _, .ext _ _ => .inr ⟨rfl, .ext _ _⟩
  | _, .dup _ _ => .inr ⟨rfl, .dup _ _⟩
  | m, .un op e => by
    rcases handle_ok_or hg (.arg op.code) e with ⟨⟨t, h⟩, hn⟩ | ⟨h, hw⟩
    · refine .inl ⟨⟨_, by simp only [handle, h, Res.ok_bind]; rfl⟩, ?_⟩
      intro hw
      cases hw with
      | un _ hw => exact hn hw
    · exact .inr ⟨by simp [handle, h], .un _ hw⟩
  | m, .bin op l r => by
    rcases handle_ok_or hg (.arg op.code) l with ⟨⟨t, h⟩, hn⟩ | ⟨h, hw⟩
    · rcases handle_ok_or hg (.arg op.code) r with ⟨⟨t', h'⟩, hn'⟩ | ⟨h', hw'⟩
      · refine .inl ⟨⟨_, by simp only [handle, h, h', Res.ok_bind]; rfl⟩, ?_⟩
        intro hw
        cases hw with
        | left _ _ hw => exact hn hw
        | right _ _ hw => exact hn' hw
      · exact .inr ⟨by simp [handle, h, h'], .right _ _ hw'⟩
    · exact .inr ⟨by simp [handle, h], .left _ _ hw⟩
  | m, .cat es => by
    rcases handles_ok_or hg es with ⟨⟨t, h⟩, hn⟩ | ⟨h, hw⟩
    · refine .inl ⟨⟨_, by simp only [handle, h, Res.ok_bind]; rfl⟩, ?_⟩
      intro hw
      cases hw with
      | cat hw => exact hn hw
    · exact .inr ⟨by simp [handle, h], .cat hw⟩
  | m, .cond c l r => by
    rcases handle_ok_or hg .top c with ⟨⟨t, h⟩, hn⟩ | ⟨h, hw⟩
    · rcases handle_ok_or hg .top l with ⟨⟨t', h'⟩, hn'⟩ | ⟨h', hw'⟩
      · rcases handle_ok_or hg .top r with ⟨⟨t2, h2⟩, hn2⟩ | ⟨h2, hw2⟩
        · refine .inl ⟨?_, ?_⟩
          · cases m <;> exact ⟨_, by simp only [handle, h, h', h2, Res.ok_bind]; rfl⟩
          · intro hw
            cases hw with
            | test _ _ hw => exact hn hw
            | yes _ _ hw => exact hn' hw
            | no _ _ hw => exact hn2 hw
        · exact .inr ⟨by simp [handle, h, h', h2], .no _ _ hw2⟩
      · exact .inr ⟨by simp [handle, h, h'], .yes _ _ hw'⟩
    · exact .inr ⟨by simp [handle, h], .test _ _ hw⟩

theorem handles_ok_or (hg : Nat → Str) : ∀ es : Es,
    (∃ t, handles hg es = .ok t) ∧ ¬ WidensIn es ∨ handles hg es = .ub ∧ WidensIn es
  | .nil => .inl ⟨⟨_, rfl⟩, nofun⟩
  | .cons e es => by
    rcases handle_ok_or hg .top e with ⟨⟨t, h⟩, hn⟩ | ⟨h, hw⟩
    · rcases handles_ok_or hg es with ⟨⟨t', h'⟩, hn'⟩ | ⟨h', hw'⟩
      · refine .inl ⟨⟨_, by simp only [handles, h, h', Res.ok_bind]; rfl⟩, ?_⟩
        intro hw
        cases hw with
        | here _ hw => exact hn hw
        | there _ hw => exact hn' hw
      · exact .inr ⟨by simp [handles, h, h'], .there _ hw'⟩
    · exact .inr ⟨by simp [handles, h], .here _ hw⟩
end

/-- The call never returns exactly for the expressions with an extension or a repetition as an operand;
otherwise it gives a text, without an exception. -/
theorem handle_diverges_iff (hg : Nat → Str) (e : E) :
    (handle hg .top e = .ub ↔ Widens e) ∧ ((∃ t, handle hg .top e = .ok t) ↔ ¬ Widens e) := by
  rcases handle_ok_or hg .top e with ⟨⟨t, h⟩, hn⟩ | ⟨h, hw⟩
  · exact ⟨⟨fun h' => (by rw [h] at h'; cases h'), fun hw => absurd hw hn⟩, ⟨fun _ => hn, fun _ => ⟨t, h⟩⟩⟩
  · exact ⟨⟨fun _ => hw, fun _ => h⟩, ⟨fun ⟨t, h'⟩ => (by rw [h] at h'; cases h'), fun hn => absurd hw hn⟩⟩

/-! ### Counterexamples and concrete cases -/

/-- Two children `c` and `d` of the top. -/
def kids : Nat → Str
  | 1 => ['t', '.', 'c']
  | 2 => ['t', '.', 'd']
  | _ => ['t']

/-- Their names in the top generator. -/
def inTop : Nat → Str
  | 1 => ['c']
  | 2 => ['d']
  | _ => []

def opEq : Op := ⟨5, ['=', '=']⟩
def opAdd : Op := ⟨0, ['+']⟩
def opNot : Op := ⟨9, ['~']⟩

def o1 : E := .var 1 ['o']
def o2 : E := .var 2 ['o']

/-- `c.o == d.o` -/
def same : E := .bin opEq o1 o2

/-- The index of an element is written without its path. -/
theorem handle_index_wrong :
    handle kids .top (.index 1 o1 o2) = .ok ['t', '.', 'c', '.', 'o', '[', 'o', ']'] ∧
    text .top (rename (fullName kids) (.index 1 o1 o2)) =
      ['t', '.', 'c', '.', 'o', '[', 't', '.', 'd', '.', 'o', ']'] := by
  refine ⟨?_, ?_⟩ <;> decide +kernel

/-- The path of a cast is written before the cast: no legal name at all. -/
theorem handle_cast_wrong :
    handle kids .top (.cast 1 ['s'] o1) = .ok ['t', '.', 'c', '.', 's', '\'', '(', 'o', ')'] := by
  decide +kernel

/-- A parameter is written without its path. -/
theorem handle_param_wrong : handle kids .top (.param 1 ['P']) = .ok ['P'] := by decide +kernel

def va : E := .var 0 ['a']
def vb : E := .var 0 ['b']

/-- `(a ? b : a) ? b : a` and `a ? b : (a ? b : a)` have the same hierarchical text, but not the same
text. -/
theorem handle_cond_ambiguous (hg : Nat → Str) :
    handle hg .top (.cond (.cond va vb va) vb va) = handle hg .top (.cond va vb (.cond va vb va)) ∧
    text .top (.cond (.cond va vb va) vb va) ≠ text .top (.cond va vb (.cond va vb va)) := by
  refine ⟨?_, by decide +kernel⟩
  simp [handle, va, vb]

theorem not_HandleClaim : ¬ HandleClaim := by
  intro h
  have := h kids (.param 1 ['P'])
  revert this
  decide +kernel

/-- The two sides of `c.o == d.o` have the same name in every scope: the condition of two different
signals reads as that of a signal with itself. -/
theorem same_text (rv : Nat → Str → Res Str) :
    relative rv same = .ok ['o', ' ', '=', '=', ' ', 'o'] ∧
    relative rv (.bin opEq o1 o1) = relative rv same := by
  refine ⟨?_, ?_⟩ <;> rfl

theorem not_RelativeClaim : ¬ RelativeClaim := by
  intro h
  have := h inTop same
  revert this
  decide +kernel

/-- An operator over a signal outside the scope is not refused although the signal is. -/
theorem relative_unrefused :
    relative (fun _ _ => .throw .var) o1 = .throw .var ∧
    relative (fun _ _ => .throw .var) (.un opNot o1) = .ok ['~', 'o'] := ⟨rfl, rfl⟩

example : Fine (.bin opEq (.un opNot (.slice 1 o1 ['[', '0', ']']))
    (.cat (.cons o2 (.cons (.const ['1']) .nil)))) :=
  .bin _ (.un _ (.chain (.slice _ (.var _)))) (.cat (.cons (.chain (.var (g := 2) _)) (.cons (.const _) .nil)))

example : handle kids .top (.bin opEq (.bin opAdd o1 o2) (.cat (.cons o2 (.cons va .nil)))) =
    .ok ("(t.c.o + t.d.o) == {t.d.o, t.a}".toList) := by decide +kernel

example : relative (fun g n => .ok (fullName inTop g n)) (.cond va o1 (.cat (.cons o2 (.cons vb .nil)))) =
    .ok ("a ? c.o: {d.o, b}".toList) := by decide +kernel

example : Flat (.cond va o1 (.cat (.cons o2 (.cons vb .nil)))) :=
  .cond rfl (.chain (.var (g := 0) _)) (.chain (.var (g := 1) _))
    (.cat (.cons (.chain (.var (g := 2) _)) (.cons (.chain (.var (g := 0) _)) .nil)))

example : Widens (.bin opAdd (.ext ['8'] va) vb) := .left _ _ (.ext _ _)
example : ¬ Widens same := fun h => by
  have h := (handle_diverges_iff kids same).1.2 h
  revert h
  decide +kernel
example : relative (fun _ _ => .throw .var) (.cat (.cons o1 (.cons o2 .nil))) = .throw .var :=
  relative_cat_throw rfl

end Kratos.HExpr
