import Verif.Misc.XXHash
import Verif.Gen.CtxProps

/-!
# C44: which modules get merged

`hash_generator` (src/hash.cc:199-360): the number by which `uniquify_generators` decides that two generators
of one name are the same module and are to be emitted once.

What a body consists of is kept here in full — owners of ports, declared directions and widths, conditions, labels,
loop bounds, free text — so that "the bodies differ" means what it says; the hash below reads only some of it.
Left out: every statement is visited once (a statement object placed twice is skipped by the visitor the second
time); the shortcut for a name used once (src/hash.cc:353-355), where there is nothing to merge.
-/

namespace Kratos.ModHash

open Kratos.XXHash

abbrev Str := List Char

/-! ### Bodies -/

/-- Expressions. `owner` is the instance a connected port belongs to (`none`: the module itself); `wpar` the
parameter the width depends on; operators are their codes (src/expr.hh:17-59). -/
inductive V where
  | var (owner : Option Str) (text : Str) (width : Nat) (wpar : Option Str)
  | param (text : Str)
  | const (value : Word) (width : Nat)
  | un (op : Nat) (e : V)
  | bin (op : Nat) (l r : V)
  | cond (c l r : V)
  | extend (width : Nat) (e : V)
  deriving DecidableEq

/-- Kinds of statement blocks. -/
inductive Kind where
  | comb
  | seq (events : List (Bool × Str))
  | latch
  | initial
  | final
  | scope
  | function (name : Str)
  deriving DecidableEq

mutual
/-- Statements. `silent` stands for raw text, comments, assertions and `return`. -/
inductive S where
  | assign (nonblocking : Bool) (l r : V)
  | ite (c : Str) (t e : Ss)
  | switch (target : Str) (cases : Cs)
  | block (k : Kind) (body : Ss)
  | loop (v : Str) (lo hi step : Int) (body : Ss)
  | call (f : Str) (args : List Str)
  | inst (instance_ : Str) (target : Nat)
  | silent (text : Str)
inductive Ss where
  | nil
  | cons (s : S) (ss : Ss)
/-- Cases in the order of their labels, the default last. -/
inductive Cs where
  | nil
  | cons (label : Option Word) (body : Ss) (cs : Cs)
end

def Ss.append : Ss → Ss → Ss
  | .nil, b => b
  | .cons s a, b => .cons s (a.append b)

inductive Dir where
  | input
  | output
  | inout
  | none
  deriving DecidableEq

structure Decl where
  name : Str
  dir : Dir
  width : Nat
  signed : Bool
  deriving DecidableEq

mutual
/-- A generator: its variables, statements, functions and child instances. -/
inductive M where
  | mk (name : Str) (decls : List Decl) (stmts funcs : Ss) (children : Ms)
inductive Ms where
  | nil
  | cons (instance_ : Str) (external : Bool) (m : M) (ms : Ms)
end

/-! ### The hash -/

/-- `hash_64_fnv1a` (src/hash.cc:200-213) on the characters of a name. -/
def fnvFrom (h : Word) : List Byte → Word
  | [] => h
  | b :: bs => fnvFrom ((h ^^^ BitVec.ofNat 64 b.toNat) * 0x100000001b3#64) bs

def chars (s : Str) : List Byte := s.map fun c => BitVec.ofNat 8 c.toNat

def fnv (s : Str) : Word := fnvFrom 0xcbf29ce484222325#64 (chars s)

/-- `hash_var` (src/hash.cc:219-239); a missing operand counts 0. -/
def V.hash : V → Word
  | .var _ t w none => fnv t ^^^ BitVec.ofNat 64 w
  | .var _ t _ (some _) => fnv t
  | .param t => fnv t
  | .const v _ => v
  | .un op e => e.hash ^^^ 0#64 ^^^ BitVec.ofNat 64 op
  | .bin op l r => l.hash ^^^ r.hash ^^^ BitVec.ofNat 64 op
  | .cond _ l r => l.hash ^^^ r.hash ^^^ 27#64
  | .extend _ e => e.hash ^^^ 0#64 ^^^ 29#64

/-- The magic number, rotated (`shift_const`, src/hash.cc:215-217, 276-345). -/
def sig (n : Nat) : Word := rotl 0x9e3779b97f4a7c16#64 n

/-- The text of the event controls (src/hash.cc:302-309). -/
def evText : List (Bool × Str) → Str
  | [] => []
  | (true, v) :: es => '1' :: v ++ evText es
  | (false, v) :: es => '0' :: v ++ evText es

/-- The entry of a block itself, if it has one (src/hash.cc:296-313). -/
def Kind.entry (L : Nat) : Kind → List Word
  | .comb => [sig 3 <<< L]
  | .seq es => [fnv (evText es) <<< L ^^^ sig 3]
  | _ => []

/-- Shifting a 64-bit value by 64 or more is undefined. -/
def guard (L : Nat) (w : List Word) : Res (List Word) := if L < 64 then .ok w else .ub

mutual
/-- The `visit` functions (src/hash.cc:269-345) in the order of `IRVisitor::visit_root` (src/ir.cc:24-39): a node
at depth `L`, then its children at depth `L + 1`. The statements of a branch, a case or a loop lie in a scoped
block, one level further down. `h` is what the context knows of hashes of targets. -/
def S.entries (h : Nat → Option Word) (L : Nat) : S → Res (List Word)
  | .assign _ l r => guard L [rotl (l.hash ^^^ rotl r.hash 1) L]
  | .ite c t e => (guard L [sig 1 ^^^ fnv c <<< L]).bind fun a =>
      (t.entries h (L + 2)).bind fun b => (e.entries h (L + 2)).bind fun d => .ok (a ++ b ++ d)
  | .switch v cs => (guard L [sig 2 ^^^ fnv v <<< L]).bind fun a => (cs.entries h (L + 2)).bind fun b => .ok (a ++ b)
  | .block k body => (guard L (k.entry L)).bind fun a => (body.entries h (L + 1)).bind fun b => .ok (a ++ b)
  | .loop _ _ _ _ body => body.entries h (L + 2)
  | .call f args => guard L [fnv (f ++ args.flatten) <<< L ^^^ sig 4]
  | .inst _ t => match h t with
    | some w => .ok [w ^^^ sig 4]
    | none => .throw .user
  | .silent _ => .ok []
def Ss.entries (h : Nat → Option Word) (L : Nat) : Ss → Res (List Word)
  | .nil => .ok []
  | .cons s ss => (s.entries h L).bind fun a => (ss.entries h L).bind fun b => .ok (a ++ b)
def Cs.entries (h : Nat → Option Word) (L : Nat) : Cs → Res (List Word)
  | .nil => .ok []
  | .cons _ b cs => (b.entries h L).bind fun a => (cs.entries h L).bind fun d => .ok (a ++ d)
end

mutual
/-- A generator at depth `L`: statements, functions, then the child generators
(`Generator::get_child`, src/generator.cc:388-402; an external child has none, src/generator.hh:176-178). -/
def M.entries (h : Nat → Option Word) (L : Nat) : M → Res (List Word)
  | .mk _ _ ss fs cs => (ss.entries h (L + 1)).bind fun a => (fs.entries h (L + 1)).bind fun b =>
      (cs.entries h (L + 1)).bind fun d => .ok (a ++ b ++ d)
def Ms.entries (h : Nat → Option Word) (L : Nat) : Ms → Res (List Word)
  | .nil => .ok []
  | .cons _ ext m ms => (if ext then .ok [] else m.entries h L).bind fun a =>
      (ms.entries h L).bind fun b => .ok (a ++ b)
end

def M.name : M → Str
  | .mk n _ _ _ _ => n
def M.decls : M → List Decl
  | .mk _ d _ _ _ => d

/-- The bytes of a 64-bit word in memory, lowest first. -/
def bytesOf : Nat → Word → List Byte
  | 0, _ => []
  | n + 1, w => w.setWidth 8 :: bytesOf n (w >>> 8)

/-- `stmt_hashes_.data()` as bytes. -/
def memory (ws : List Word) : List Byte := ws.flatMap (bytesOf 8)

/-- The seed: name and variable names (src/hash.cc:244-253, 256-259). -/
def seedOf (name : Str) (vars : List Str) : Word :=
  vars.foldl (fun a v => a ^^^ fnv v) (fnv name <<< 32)

/-- `hash_generator` (src/hash.cc:351-360) with `produce_hash` (src/hash.cc:256-267). -/
def M.hash (h : Nat → Option Word) (m : M) : Res Word :=
  (m.entries h 0).bind fun ws => .ok (hashOf (memory ws) (seedOf m.name (m.decls.map Decl.name)))

/-! ### Differences the hash does not see -/

/-- Expressions that print differently and count the same. -/
inductive LikeV : V → V → Prop where
  | refl (a) : LikeV a a
  | symm {a b} : LikeV a b → LikeV b a
  | trans {a b c} : LikeV a b → LikeV b c → LikeV a c
  /-- a port of another instance with a port of that name -/
  | owner (o o' t w p) : LikeV (.var o t w p) (.var o' t w p)
  /-- another parametrized width -/
  | parWidth (o t w w' p p') : LikeV (.var o t w (some p)) (.var o t w' (some p'))
  /-- a constant of another width -/
  | constWidth (v w w') : LikeV (.const v w) (.const v w')
  | un (op) {a b} : LikeV a b → LikeV (.un op a) (.un op b)
  | bin (op) {a b a' b'} : LikeV a a' → LikeV b b' → LikeV (.bin op a b) (.bin op a' b')
  /-- the operands exchanged -/
  | swap (op a b) : LikeV (.bin op a b) (.bin op b a)
  /-- one and the same expression on both sides: which one makes no difference -/
  | twice (op a b) : LikeV (.bin op a a) (.bin op b b)
  /-- regrouped -/
  | regroup (op op' a b c) : LikeV (.bin op (.bin op' a b) c) (.bin op a (.bin op' b c))
  /-- another condition -/
  | cond (c c') {a b a' b'} : LikeV a a' → LikeV b b' → LikeV (.cond c a b) (.cond c' a' b')
  /-- extended to another width -/
  | extend (w w') {a b} : LikeV a b → LikeV (.extend w a) (.extend w' b)

/-- Blocks without an entry of their own. -/
def Kind.mute : Kind → Prop
  | .comb | .seq _ => False
  | _ => True

/-- The same or an indistinguishable kind of block. -/
inductive LikeK : Kind → Kind → Prop where
  | refl (k) : LikeK k k
  /-- latch, initial, final and plain blocks -/
  | mute {k k'} : k.mute → k'.mute → LikeK k k'
  /-- events whose texts run together to the same string -/
  | events {e e'} : evText e = evText e' → LikeK (.seq e) (.seq e')

mutual
inductive LikeS : S → S → Prop where
  /-- `=` or `<=` -/
  | assign (n n' : Bool) {l r l' r' : V} : LikeV l l' → LikeV r r' → LikeS (.assign n l r) (.assign n' l' r')
  /-- statements moved between the branches -/
  | ite (c : Str) {t e t' e' : Ss} : LikeSs (t.append e) (t'.append e') → LikeS (.ite c t e) (.ite c t' e')
  /-- other labels -/
  | switch (v : Str) {cs cs' : Cs} : LikeCs cs cs' → LikeS (.switch v cs) (.switch v cs')
  | block {k k' : Kind} {b b' : Ss} : LikeK k k' → LikeSs b b' → LikeS (.block k b) (.block k' b')
  /-- other loop variable and bounds -/
  | loop (v v' : Str) (a b c a' b' c' : Int) {s s' : Ss} : LikeSs s s' → LikeS (.loop v a b c s) (.loop v' a' b' c' s')
  /-- arguments whose texts run together to the same string -/
  | call {f f' : Str} {a a' : List Str} : f ++ a.flatten = f' ++ a'.flatten → LikeS (.call f a) (.call f' a')
  /-- another instance name -/
  | inst (i i' : Str) (t : Nat) : LikeS (.inst i t) (.inst i' t)
  /-- other text -/
  | silent (a b : Str) : LikeS (.silent a) (.silent b)
inductive LikeSs : Ss → Ss → Prop where
  | nil : LikeSs .nil .nil
  | cons {s s' : S} {ss ss' : Ss} : LikeS s s' → LikeSs ss ss' → LikeSs (.cons s ss) (.cons s' ss')
  /-- free text added or removed -/
  | add (t : Str) {ss ss' : Ss} : LikeSs ss ss' → LikeSs ss (.cons (.silent t) ss')
  | drop (t : Str) {ss ss' : Ss} : LikeSs ss ss' → LikeSs (.cons (.silent t) ss) ss'
inductive LikeCs : Cs → Cs → Prop where
  | nil : LikeCs .nil .nil
  | cons (l l' : Option Word) {b b' : Ss} {cs cs' : Cs} : LikeSs b b' → LikeCs cs cs' →
      LikeCs (.cons l b cs) (.cons l' b' cs')
end

mutual
inductive LikeM : M → M → Prop where
  /-- other directions, widths and signs of the declarations -/
  | mk (n : Str) {d d' : List Decl} {s s' f f' : Ss} {c c' : Ms} : d.map Decl.name = d'.map Decl.name →
      LikeSs s s' → LikeSs f f' → LikeMs c c' → LikeM (.mk n d s f c) (.mk n d' s' f' c')
/-- Child instances: of their names and variables nothing is read. -/
inductive LikeMs : Ms → Ms → Prop where
  | nil : LikeMs .nil .nil
  | cons (i i' n n' : Str) (d d' : List Decl) {s s' f f' : Ss} {c c' : Ms} {ms ms' : Ms} : LikeSs s s' → LikeSs f f' →
      LikeMs c c' → LikeMs ms ms' →
      LikeMs (.cons i false (.mk n d s f c) ms) (.cons i' false (.mk n' d' s' f' c') ms')
  /-- another external module, or none -/
  | ext (i i' : Str) (m m' : M) {ms ms' : Ms} : LikeMs ms ms' → LikeMs (.cons i true m ms) (.cons i' true m' ms')
end

theorem likeV_hash {a b : V} (h : LikeV a b) : a.hash = b.hash := by
  induction h with
  | refl => rfl
  | symm _ ih => exact ih.symm
  | trans _ _ i1 i2 => exact i1.trans i2
  | owner o o' t w p => cases p <;> rfl
  | parWidth => rfl
  | constWidth => rfl
  | un op _ ih => simp only [V.hash, ih]
  | bin op _ _ i1 i2 => simp only [V.hash, i1, i2]
  | swap op a b => simp only [V.hash, BitVec.xor_comm a.hash b.hash]
  | twice op a b => simp only [V.hash, BitVec.xor_self]
  | regroup op op' a b c => 
    simp only [V.hash]
    ac_rfl
  | cond c c' _ _ i1 i2 => simp only [V.hash, i1, i2]
  | extend w w' _ ih => simp only [V.hash, ih]

theorem entries_append (h : Nat → Option Word) (L : Nat) : ∀ (a b : Ss),
    (a.append b).entries h L = (a.entries h L).bind fun x => (b.entries h L).bind fun y => .ok (x ++ y)
  | .nil, b => by simp only [Ss.append, Ss.entries, Res.ok_bind, List.nil_append, Res.bind_ok]
  | .cons s a, b => by
    simp only [Ss.append, Ss.entries, entries_append h L a b]
    cases s.entries h L <;> simp only [Res.ok_bind, Res.throw_bind, Res.ub_bind]
    cases a.entries h L <;> simp only [Res.ok_bind, Res.throw_bind, Res.ub_bind]
    cases b.entries h L <;> simp only [Res.ok_bind, Res.throw_bind, Res.ub_bind, List.append_assoc]

theorem likeK_entry {k k' : Kind} (h : LikeK k k') (L : Nat) : k.entry L = k'.entry L := by
  cases h with
  | refl => rfl
  | mute a b => cases k <;> cases k' <;> simp_all [Kind.mute, Kind.entry]
  | events e => simp only [Kind.entry, e]

mutual
theorem likeS_entries (h : Nat → Option Word) : ∀ (L : Nat) {s s' : S}, LikeS s s' → s.entries h L = s'.entries h L
  | L, _, _, .assign n n' hl hr => by simp only [S.entries, likeV_hash hl, likeV_hash hr]
  | L, _, _, .ite c (t := t) (e := e) (t' := t') (e' := e') hb => by
    have := likeSs_entries h (L + 2) hb
    simp only [entries_append] at this
    simp only [S.entries, List.append_assoc]
    cases guard L [sig 1 ^^^ fnv c <<< L] with
    | ok a =>
      simp only [Res.ok_bind]
      revert this
      cases t.entries h (L + 2) <;> cases t'.entries h (L + 2) <;> cases e.entries h (L + 2) <;>
        cases e'.entries h (L + 2) <;> simp
    | throw e => rfl
    | ub => rfl
  | L, _, _, .switch v hc => by simp only [S.entries, likeCs_entries h (L + 2) hc]
  | L, _, _, .block hk hb => by simp only [S.entries, likeK_entry hk, likeSs_entries h (L + 1) hb]
  | L, _, _, .loop _ _ _ _ _ _ _ _ hb => by simp only [S.entries, likeSs_entries h (L + 2) hb]
  | L, _, _, .call e => by simp only [S.entries, e]
  | L, _, _, .inst _ _ t => by simp only [S.entries]
  | L, _, _, .silent _ _ => rfl
theorem likeSs_entries (h : Nat → Option Word) : ∀ (L : Nat) {s s' : Ss}, LikeSs s s' → s.entries h L = s'.entries h L
  | L, _, _, .nil => rfl
  | L, _, _, .cons hs hss => by simp only [Ss.entries, likeS_entries h L hs, likeSs_entries h L hss]
  | L, _, _, .add t hss => by
    simp only [Ss.entries, S.entries, likeSs_entries h L hss, Res.ok_bind, List.nil_append, Res.bind_ok]
  | L, _, _, .drop t hss => by
    simp only [Ss.entries, S.entries, likeSs_entries h L hss, Res.ok_bind, List.nil_append, Res.bind_ok]
theorem likeCs_entries (h : Nat → Option Word) : ∀ (L : Nat) {s s' : Cs}, LikeCs s s' → s.entries h L = s'.entries h L
  | L, _, _, .nil => rfl
  | L, _, _, .cons _ _ hs hss => by simp only [Cs.entries, likeSs_entries h L hs, likeCs_entries h L hss]
end

theorem likeMs_entries (h : Nat → Option Word) : ∀ (L : Nat) {s s' : Ms}, LikeMs s s' → s.entries h L = s'.entries h L
  | L, _, _, .nil => rfl
  | L, _, _, .cons _ _ _ _ _ _ hs hf hc hms => by
    simp only [Ms.entries, M.entries, likeSs_entries h (L + 1) hs, likeSs_entries h (L + 1) hf,
      likeMs_entries h (L + 1) hc, likeMs_entries h L hms]
  | L, _, _, .ext _ _ _ _ hms => by
    simp only [Ms.entries, if_true, likeMs_entries h L hms]

/-- **C44, what is not read**: modules that differ only in the listed ways have the same hash, whatever else they
contain and however deep the differences lie. -/
theorem like_same_hash (h : Nat → Option Word) {m m' : M} (hm : LikeM m m') : m.hash h = m'.hash h := by
  cases hm with
  | mk n hd hs hf hc =>
    simp only [M.hash, M.entries, likeSs_entries h _ hs, likeSs_entries h _ hf, likeMs_entries h _ hc, M.name, M.decls, hd]

/-! ### Differences the hash does see -/

theorem rotl_bit (x : Word) {n : Nat} (h0 : 0 < n) (hn : n < 64) {j : Nat} (hj : j < 64) :
    (rotl x n).getLsbD ((j + n) % 64) = x.getLsbD j := by
  unfold rotl
  rw [BitVec.getLsbD_or, BitVec.getLsbD_shiftLeft, BitVec.getLsbD_ushiftRight]
  by_cases hc : j + n < 64
  · rw [Nat.mod_eq_of_lt hc]
    have h2 : x.getLsbD (64 - n + (j + n)) = false := BitVec.getLsbD_of_ge _ _ (by omega)
    rw [h2, Bool.or_false]
    simp [hc, show j + n - n = j by omega]
  · have e : (j + n) % 64 = j + n - 64 := by omega
    rw [e, show 64 - n + (j + n - 64) = j by omega]
    simp [show j + n - 64 < n by omega]

/-- Rotation loses nothing. -/
theorem rotl_inj {x y : Word} {n : Nat} (h0 : 0 < n) (hn : n < 64) (h : rotl x n = rotl y n) : x = y := by
  apply BitVec.eq_of_getLsbD_eq
  intro j hj
  rw [← rotl_bit x h0 hn hj, ← rotl_bit y h0 hn hj, h]

/-- Neither does `x ^ (x >> k)`. -/
theorem xorshift_inj {x y : Word} {k : Nat} (hk : 0 < k) (h : x ^^^ x >>> k = y ^^^ y >>> k) : x = y := by
  have hb : ∀ d j, 64 ≤ j + d → x.getLsbD j = y.getLsbD j := by
    intro d
    induction d with
    | zero => intro j hj; rw [BitVec.getLsbD_of_ge _ _ (by omega), BitVec.getLsbD_of_ge _ _ (by omega)]
    | succ d ih =>
      intro j hj
      have e := congrArg (fun w => w.getLsbD j) h
      simp only [BitVec.getLsbD_xor, BitVec.getLsbD_ushiftRight] at e
      rw [ih (k + j) (by omega)] at e
      revert e
      cases x.getLsbD j <;> cases y.getLsbD j <;> cases y.getLsbD (k + j) <;> decide
  exact BitVec.eq_of_getLsbD_eq fun j hj => hb 64 j (by omega)

/-- Nor multiplication by a number that has an inverse. -/
theorem mul_inj {x y p q : Word} (hpq : p * q = 1#64) (h : x * p = y * p) : x = y := by
  have := congrArg (· * q) h
  simpa only [BitVec.mul_assoc, hpq, BitVec.mul_one] using this

theorem xor_left_inj {a x y : Word} (h : a ^^^ x = a ^^^ y) : x = y := by
  have := congrArg (a ^^^ ·) h
  simpa only [← BitVec.xor_assoc, BitVec.xor_self, BitVec.zero_xor] using this

theorem xor_right_inj {a x y : Word} (h : x ^^^ a = y ^^^ a) : x = y := by
  rw [BitVec.xor_comm x, BitVec.xor_comm y] at h
  exact xor_left_inj h

theorem add_right_inj {a x y : Word} (h : x + a = y + a) : x = y := by
  have := congrArg (· - a) h
  simpa only [BitVec.add_sub_cancel] using this

def inv1 : Word := 614540362697595703#64
def inv2 : Word := 839798700976720815#64
def inv3 : Word := 16855272203555305545#64
def invFnv : Word := 14886173955864302971#64

theorem inv1_ok : prime1 * inv1 = 1#64 := by decide +kernel
theorem inv2_ok : prime2 * inv2 = 1#64 := by decide +kernel
theorem inv3_ok : prime3 * inv3 = 1#64 := by decide +kernel
theorem invFnv_ok : 0x100000001b3#64 * invFnv = 1#64 := by decide +kernel

theorem mix_inj {x y : Word} (h : mix x = mix y) : x = y := by
  simp only [mix] at h
  exact xorshift_inj (by omega) (mul_inj inv2_ok (xorshift_inj (by omega) (mul_inj inv3_ok (xorshift_inj (by omega) h))))

theorem processSingle_inj {p x y : Word} (h : processSingle p x = processSingle p y) : x = y := by
  simp only [processSingle] at h
  have h := rotl_inj (by omega) (by omega) (mul_inj inv1_ok h)
  rw [BitVec.add_comm p, BitVec.add_comm p] at h
  exact mul_inj inv2_ok (add_right_inj h)

/-- One 8-byte step at the end of `hash`. -/
def step (r w : Word) : Word := rotl (r ^^^ processSingle 0 w) 27 * prime1 + prime4

theorem step_word_inj {r x y : Word} (h : step r x = step r y) : x = y :=
  processSingle_inj (xor_left_inj (rotl_inj (by omega) (by omega) (mul_inj inv1_ok (add_right_inj h))))

theorem step_state_inj {r s w : Word} (h : step r w = step s w) : r = s :=
  xor_right_inj (rotl_inj (by omega) (by omega) (mul_inj inv1_ok (add_right_inj h)))

theorem steps_state_inj (ws : List Word) {r s : Word} (h : ws.foldl step r = ws.foldl step s) : r = s := by
  induction ws generalizing r s with
  | nil => exact h
  | cons w ws ih =>
    rw [List.foldl_cons, List.foldl_cons] at h
    exact step_state_inj (ih h)

theorem bytesOf_length : ∀ n (w : Word), (bytesOf n w).length = n
  | 0, _ => rfl
  | n + 1, w => by simp only [bytesOf, List.length_cons, bytesOf_length n]

theorem le_bytesOf : ∀ n (w : Word) (i : Nat), i < 64 →
    (le (bytesOf n w)).getLsbD i = (decide (i < 8 * n) && w.getLsbD i)
  | 0, w, i, _ => by simp [bytesOf, le]
  | n + 1, w, i, hi => by
    simp only [bytesOf, le, BitVec.getLsbD_or, BitVec.getLsbD_shiftLeft, BitVec.getLsbD_ofNat]
    rw [show (BitVec.setWidth 8 w).toNat.testBit i = (BitVec.setWidth 8 w).getLsbD i from rfl, BitVec.getLsbD_setWidth]
    by_cases h8 : i < 8
    · simp [hi, h8, show i < 8 * (n + 1) by omega]
    · rw [le_bytesOf n _ (i - 8) (by omega), BitVec.getLsbD_ushiftRight, show 8 + (i - 8) = i by omega]
      simp [hi, h8, show (i - 8 < 8 * n ↔ i < 8 * (n + 1)) by omega]

/-- Reading back what was written. -/
theorem le_word (w : Word) : le (bytesOf 8 w) = w :=
  BitVec.eq_of_getLsbD_eq fun i hi => by rw [le_bytesOf 8 w i hi]; simp [hi]

theorem memory_append (a b : List Word) : memory (a ++ b) = memory a ++ memory b := List.flatMap_append

theorem memory_length : ∀ ws : List Word, (memory ws).length = 8 * ws.length
  | [] => rfl
  | w :: ws => by
    have := memory_length ws
    unfold memory at this ⊢
    rw [List.flatMap_cons, List.length_append, this, bytesOf_length, List.length_cons]; omega

theorem tail8_words : ∀ (ws : List Word) (r : Word), tail8 r (memory ws) = ws.foldl step r
  | [], r => by
    rw [tail8]
    simp [memory, tail4, tail1]
  | w :: ws, r => by
    have hm : memory (w :: ws) = bytesOf 8 w ++ memory ws := List.flatMap_cons
    rw [tail8, if_pos (by rw [memory_length, List.length_cons]; omega), hm,
      List.take_append_of_le_length (by rw [bytesOf_length]; omega), List.take_of_length_le (by rw [bytesOf_length]; omega),
      List.drop_append_of_le_length (by rw [bytesOf_length]; omega), List.drop_of_length_le (by rw [bytesOf_length]; omega),
      List.nil_append, le_word, tail8_words ws, List.foldl_cons, step]

/-- What is left of the full stripes, and the length. -/
def start (seed : Word) (p : List Byte) (len : Nat) : Word :=
  let a := specLanes seed p (p.length / 32)
  (if 32#64 ≤ BitVec.ofNat 64 len then fold4 a.s0 a.s1 a.s2 a.s3 else a.s2 + prime5) + BitVec.ofNat 64 len

theorem hashOf_words (seed : Word) (p t : List Word) (hp : p.length % 4 = 0) (ht : t.length < 4) :
    hashOf (memory (p ++ t)) seed = mix (t.foldl step (start seed (memory p) (memory (p ++ t)).length)) := by
  obtain ⟨⟨h0, h1, h2, h3⟩, hb, hl⟩ : Inv seed (memory (p ++ t)) (add (new seed) (memory (p ++ t))).1 := by
    simpa using (Inv.new seed).add (memory (p ++ t))
  have hlen := memory_length (p ++ t)
  have hpl := memory_length p
  rw [List.length_append] at hlen
  have hn : (memory (p ++ t)).length / 32 = (memory p).length / 32 := by omega
  have hspec : specLanes seed (memory (p ++ t)) ((memory (p ++ t)).length / 32) =
      specLanes seed (memory p) ((memory p).length / 32) := by
    rw [hn, memory_append, specLanes_append _ _ _ _ (by omega)]
  rw [hspec] at h0 h1 h2 h3
  have hbuf : (memory (p ++ t)).drop (32 * ((memory (p ++ t)).length / 32)) = memory t := by
    rw [hn, memory_append, show 32 * ((memory p).length / 32) = (memory p).length by omega, List.drop_left]
  rw [hbuf] at hb
  unfold hashOf XXHash.hash start
  simp only
  rw [h0, h1, h2, h3, hb, hl, tail8_words]

/-- The hash tells lists of entries apart that differ in one entry behind the last full group of four. -/
theorem word_counts (seed : Word) (pre post : List Word) (x y : Word)
    (hpos : pre.length % 4 + post.length < 3)
    (h : hashOf (memory (pre ++ x :: post)) seed = hashOf (memory (pre ++ y :: post)) seed) : x = y := by
  have hsplit : pre = pre.take (4 * (pre.length / 4)) ++ pre.drop (4 * (pre.length / 4)) := (List.take_append_drop ..).symm
  have hlt : (pre.take (4 * (pre.length / 4))).length = 4 * (pre.length / 4) := by rw [List.length_take]; omega
  have hld : (pre.drop (4 * (pre.length / 4))).length = pre.length % 4 := by rw [List.length_drop]; omega
  generalize pre.take (4 * (pre.length / 4)) = p at hsplit hlt
  generalize pre.drop (4 * (pre.length / 4)) = t at hsplit hld
  have key : ∀ z, hashOf (memory (pre ++ z :: post)) seed =
      mix ((t ++ z :: post).foldl step (start seed (memory p) (8 * (p.length + (t.length + (post.length + 1)))))) := by
    intro z
    rw [hsplit, List.append_assoc, hashOf_words seed p _ (by omega) (by simp only [List.length_append, List.length_cons]; omega),
      memory_length]
    simp only [List.length_append, List.length_cons]
  rw [key, key] at h
  have h := mix_inj h
  simp only [List.foldl_append, List.foldl_cons] at h
  exact step_word_inj (steps_state_inj post h)

/-- A character of a name counts: names of the same length that differ in one byte have different hashes. -/
theorem fnvFrom_state_inj : ∀ (bs : List Byte) {h k : Word}, fnvFrom h bs = fnvFrom k bs → h = k
  | [], _, _, e => e
  | _ :: bs, _, _, e => xor_right_inj (mul_inj invFnv_ok (fnvFrom_state_inj bs e))

theorem fnvFrom_append : ∀ (a b : List Byte) (h : Word), fnvFrom h (a ++ b) = fnvFrom (fnvFrom h a) b
  | [], _, _ => rfl
  | _ :: a, b, h => fnvFrom_append a b _

theorem ofByte_inj {a b : Byte} (h : BitVec.ofNat 64 a.toNat = BitVec.ofNat 64 b.toNat) : a = b := by
  have := congrArg BitVec.toNat h
  rw [BitVec.toNat_ofNat, BitVec.toNat_ofNat, Nat.mod_eq_of_lt (by have := a.isLt; omega),
    Nat.mod_eq_of_lt (by have := b.isLt; omega)] at this
  exact BitVec.eq_of_toNat_eq this

/-- **C44, names**: two names that differ in exactly one character hash differently. -/
theorem name_counts (pre post : Str) (a b : Char) (ha : a.toNat < 256) (hb : b.toNat < 256) (hne : a ≠ b) :
    fnv (pre ++ a :: post) ≠ fnv (pre ++ b :: post) := by
  intro h
  simp only [fnv, chars, List.map_append, List.map_cons, fnvFrom_append, fnvFrom] at h
  have h := xor_left_inj (mul_inj invFnv_ok (fnvFrom_state_inj _ h))
  have h := congrArg BitVec.toNat (ofByte_inj h)
  rw [BitVec.toNat_ofNat, BitVec.toNat_ofNat, Nat.mod_eq_of_lt ha, Nat.mod_eq_of_lt hb] at h
  exact hne (Char.ext (UInt32.toNat_inj.1 h))

/-- Right-hand sides that count differently make entries that differ. -/
theorem assign_counts {L : Nat} (h0 : 0 < L) (hL : L < 64) {l x y : Word}
    (h : rotl (l ^^^ rotl x 1) L = rotl (l ^^^ rotl y 1) L) : x = y :=
  rotl_inj (by omega) (by omega) (xor_left_inj (rotl_inj h0 hL h))

/-! ### Where an assignment sits -/

/-- Positions in a list of statements: the path to one assignment, as a context. `at_ C s` is the list with `s` put
into the hole. -/
inductive Ctx where
  | here (before after : Ss)
  | thenOf (before : Ss) (c : Str) (inner : Ctx) (e after : Ss)
  | elseOf (before : Ss) (c : Str) (t : Ss) (inner : Ctx) (after : Ss)
  | blockOf (before : Ss) (k : Kind) (inner : Ctx) (after : Ss)
  | loopOf (before : Ss) (v : Str) (lo hi st : Int) (inner : Ctx) (after : Ss)

def Ctx.at_ : Ctx → S → Ss
  | .here b a, s => b.append (.cons s a)
  | .thenOf b c i e a, s => b.append (.cons (.ite c (i.at_ s) e) a)
  | .elseOf b c t i a, s => b.append (.cons (.ite c t (i.at_ s)) a)
  | .blockOf b k i a, s => b.append (.cons (.block k (i.at_ s)) a)
  | .loopOf b v lo hi st i a, s => b.append (.cons (.loop v lo hi st (i.at_ s)) a)

/-- The depth of the hole. -/
def Ctx.depth (L : Nat) : Ctx → Nat
  | .here _ _ => L
  | .thenOf _ _ i _ _ => i.depth (L + 2)
  | .elseOf _ _ _ i _ => i.depth (L + 2)
  | .blockOf _ _ i _ => i.depth (L + 1)
  | .loopOf _ _ _ _ _ i _ => i.depth (L + 2)

theorem depth_ge (C : Ctx) : ∀ L, L ≤ C.depth L := by
  induction C with
  | here => intro L; exact Nat.le_refl _
  | thenOf _ _ i _ _ ih => intro L; have := ih (L + 2); simp only [Ctx.depth]; omega
  | elseOf _ _ _ i _ ih => intro L; have := ih (L + 2); simp only [Ctx.depth]; omega
  | blockOf _ _ i _ ih => intro L; have := ih (L + 1); simp only [Ctx.depth]; omega
  | loopOf _ _ _ _ _ i _ ih => intro L; have := ih (L + 2); simp only [Ctx.depth]; omega

/-- The entry of an assignment at depth `d`. -/
def word (d : Nat) (l r : V) : Word := rotl (l.hash ^^^ rotl r.hash 1) d

theorem guard_ok {L : Nat} {w a : List Word} (h : guard L w = .ok a) : L < 64 ∧ a = w := by
  unfold guard at h
  split at h
  · exact ⟨by assumption, (Res.ok.inj h).symm⟩
  · cases h

/-- The entries around the hole do not depend on what is in it. -/
theorem entries_at (h : Nat → Option Word) (C : Ctx) : ∀ (L : Nat) (n : Bool) (l r : V) (ws : List Word),
    (C.at_ (.assign n l r)).entries h L = .ok ws → C.depth L < 64 ∧
      ∃ pre post, ws = pre ++ word (C.depth L) l r :: post ∧
        ∀ n' l' r', (C.at_ (.assign n' l' r')).entries h L = .ok (pre ++ word (C.depth L) l' r' :: post) := by
  have fin : ∀ (L : Nat) (b a : Ss) (f : V → V → Bool → S) (d : Nat) (n : Bool) (l r : V) (ws : List Word),
      (∀ xs, (f l r n).entries h L = .ok xs → d < 64 ∧ ∃ pre post, xs = pre ++ word d l r :: post ∧
        ∀ n' l' r', (f l' r' n').entries h L = .ok (pre ++ word d l' r' :: post)) →
      (b.append (.cons (f l r n) a)).entries h L = .ok ws → d < 64 ∧
      ∃ pre post, ws = pre ++ word d l r :: post ∧
        ∀ n' l' r', (b.append (.cons (f l' r' n') a)).entries h L = .ok (pre ++ word d l' r' :: post) := by
    intro L b a f d n l r ws hf hw
    simp only [entries_append, Ss.entries, Res.bind_eq_ok, Res.ok.injEq] at hw
    obtain ⟨xs, hxs, ys, ⟨zs, hzs, us, hus, rfl⟩, rfl⟩ := hw
    obtain ⟨hd, pre, post, rfl, hall⟩ := hf zs hzs
    refine ⟨hd, xs ++ pre, post ++ us, by simp, ?_⟩
    intro n' l' r'
    simp only [entries_append, Ss.entries, hxs, Res.ok_bind, hall n' l' r', hus, List.append_assoc, List.cons_append]
  induction C with
  | here b a =>
    intro L n l r ws hw
    refine fin L b a (fun l r n => .assign n l r) L n l r ws ?_ hw
    intro xs hxs
    simp only [S.entries] at hxs
    obtain ⟨hL, rfl⟩ := guard_ok hxs
    refine ⟨hL, [], [], rfl, ?_⟩
    intro n' l' r'
    simp only [S.entries, guard, if_pos hL]
    rfl
  | thenOf b c i e a ih =>
    intro L n l r ws hw
    refine fin L b a (fun l r n => .ite c (i.at_ (.assign n l r)) e) (i.depth (L + 2)) n l r ws ?_ hw
    intro xs hxs
    simp only [S.entries, Res.bind_eq_ok, Res.ok.injEq] at hxs
    obtain ⟨g, hg, t, ht, u, hu, rfl⟩ := hxs
    obtain ⟨hd, pre, post, rfl, hall⟩ := ih (L + 2) n l r t ht
    refine ⟨hd, g ++ pre, post ++ u, by simp, ?_⟩
    intro n' l' r'
    simp only [S.entries, hg, Res.ok_bind, hall n' l' r', hu, List.append_assoc, List.cons_append]
  | elseOf b c t i a ih =>
    intro L n l r ws hw
    refine fin L b a (fun l r n => .ite c t (i.at_ (.assign n l r))) (i.depth (L + 2)) n l r ws ?_ hw
    intro xs hxs
    simp only [S.entries, Res.bind_eq_ok, Res.ok.injEq] at hxs
    obtain ⟨g, hg, t, ht, u, hu, rfl⟩ := hxs
    obtain ⟨hd, pre, post, rfl, hall⟩ := ih (L + 2) n l r u hu
    refine ⟨hd, g ++ t ++ pre, post, by simp, ?_⟩
    intro n' l' r'
    simp only [S.entries, hg, Res.ok_bind, hall n' l' r', ht, List.append_assoc]
  | blockOf b k i a ih =>
    intro L n l r ws hw
    refine fin L b a (fun l r n => .block k (i.at_ (.assign n l r))) (i.depth (L + 1)) n l r ws ?_ hw
    intro xs hxs
    simp only [S.entries, Res.bind_eq_ok, Res.ok.injEq] at hxs
    obtain ⟨g, hg, t, ht, rfl⟩ := hxs
    obtain ⟨hd, pre, post, rfl, hall⟩ := ih (L + 1) n l r t ht
    refine ⟨hd, g ++ pre, post, by simp, ?_⟩
    intro n' l' r'
    simp only [S.entries, hg, Res.ok_bind, hall n' l' r', List.append_assoc]
  | loopOf b v lo hi st i a ih =>
    intro L n l r ws hw
    refine fin L b a (fun l r n => .loop v lo hi st (i.at_ (.assign n l r))) (i.depth (L + 2)) n l r ws ?_ hw
    intro xs hxs
    simp only [S.entries] at hxs
    obtain ⟨hd, pre, post, rfl, hall⟩ := ih (L + 2) n l r xs hxs
    exact ⟨hd, pre, post, rfl, fun n' l' r' => by simp only [S.entries]; exact hall n' l' r'⟩

theorem assignment_word (h : Nat → Option Word) (n : Str) (d d' : List Decl) (C : Ctx) (nb nb' : Bool) (l r r' : V)
    (hd : d.map Decl.name = d'.map Decl.name) (hne : r.hash ≠ r'.hash) (pre post : List Word)
    (hdep : C.depth 1 < 64) (hpos : pre.length % 4 + post.length < 3)
    (hpre : ∀ n' l' r', (C.at_ (.assign n' l' r')).entries h 1 = .ok (pre ++ word (C.depth 1) l' r' :: post)) :
    (M.mk n d (C.at_ (.assign nb l r)) .nil .nil).hash h ≠ (M.mk n d' (C.at_ (.assign nb' l r')) .nil .nil).hash h := by
  simp only [M.hash, M.entries, Nat.zero_add, hpre, Res.ok_bind, Ss.entries, Ms.entries, List.append_nil,
    M.name, M.decls, hd, ne_eq, Res.ok.injEq]
  intro e
  exact hne (assign_counts (depth_ge C 1) hdep (word_counts _ pre post _ _ hpos e))

/-- **C44, partial**: two modules of one name and the same variable names that are the same except for the
right-hand side of one assignment, wherever it sits — in branches, blocks and loops, however deep — have different
hashes if the two right-hand sides count differently, provided the module has no functions and children and at most
three entries.  Missing: more than three entries, several differences, differences elsewhere. -/
theorem assignment_partial (h : Nat → Option Word) (n : Str) (d d' : List Decl) (C : Ctx) (nb nb' : Bool) (l r r' : V)
    (hd : d.map Decl.name = d'.map Decl.name) (hne : r.hash ≠ r'.hash) (ws : List Word)
    (hws : (C.at_ (.assign nb l r)).entries h 1 = .ok ws) (hlen : ws.length ≤ 3) :
    (M.mk n d (C.at_ (.assign nb l r)) .nil .nil).hash h ≠ (M.mk n d' (C.at_ (.assign nb' l r')) .nil .nil).hash h := by
  obtain ⟨hdep, pre, post, rfl, hall⟩ := entries_at h C 1 nb l r ws hws
  simp only [List.length_append, List.length_cons] at hlen
  exact assignment_word h n d d' C nb nb' l r r' hd hne pre post hdep (by have := Nat.mod_le pre.length 4; omega) hall

/-- Instances: other constants … -/
theorem const_partial (h : Nat → Option Word) (n : Str) (d : List Decl) (C : Ctx) (nb : Bool) (l : V) (v v' : Word) (w w' : Nat)
    (hne : v ≠ v') (ws : List Word)
    (hws : (C.at_ (.assign nb l (.const v w))).entries h 1 = .ok ws) (hlen : ws.length ≤ 3) :
    (M.mk n d (C.at_ (.assign nb l (.const v w))) .nil .nil).hash h ≠
      (M.mk n d (C.at_ (.assign nb l (.const v' w'))) .nil .nil).hash h :=
  assignment_partial h n d d C nb nb l _ _ rfl hne ws hws hlen

/-- … other operators … -/
theorem op_partial (h : Nat → Option Word) (n : Str) (d : List Decl) (C : Ctx) (nb : Bool) (l a b : V) (op op' : Nat)
    (h1 : op < 31) (h2 : op' < 31) (hne : op ≠ op') (ws : List Word)
    (hws : (C.at_ (.assign nb l (.bin op a b))).entries h 1 = .ok ws) (hlen : ws.length ≤ 3) :
    (M.mk n d (C.at_ (.assign nb l (.bin op a b))) .nil .nil).hash h ≠
      (M.mk n d (C.at_ (.assign nb l (.bin op' a b))) .nil .nil).hash h := by
  refine assignment_partial h n d d C nb nb l _ _ rfl ?_ ws hws hlen
  intro e
  simp only [V.hash] at e
  have e := congrArg BitVec.toNat (xor_left_inj e)
  rw [BitVec.toNat_ofNat, BitVec.toNat_ofNat, Nat.mod_eq_of_lt (by omega), Nat.mod_eq_of_lt (by omega)] at e
  exact hne e

/-- … and operands of one width whose names differ in one character. -/
theorem operand_partial (h : Nat → Option Word) (n : Str) (d : List Decl) (C : Ctx) (nb : Bool) (l : V) (o o' : Option Str)
    (pre post : Str) (a b : Char) (ha : a.toNat < 256) (hb : b.toNat < 256) (hne : a ≠ b) (w : Nat) (ws : List Word)
    (hws : (C.at_ (.assign nb l (.var o (pre ++ a :: post) w none))).entries h 1 = .ok ws) (hlen : ws.length ≤ 3) :
    (M.mk n d (C.at_ (.assign nb l (.var o (pre ++ a :: post) w none))) .nil .nil).hash h ≠
      (M.mk n d (C.at_ (.assign nb l (.var o' (pre ++ b :: post) w none))) .nil .nil).hash h := by
  refine assignment_partial h n d d C nb nb l _ _ rfl ?_ ws hws hlen
  intro e
  simp only [V.hash] at e
  exact name_counts pre post a b ha hb hne (xor_right_inj e)

/-! ### What becomes of it in the design -/

open Kratos.Gen (CReach Takes uniquify uniquify_names_partial uniquify_terminates noKw nA emptyCtx cops creach_cops idx_reach)

/-- The hashes in the context are those of the generators' bodies `m`. -/
def Hashed (c : Gen.Ctx) (reg : Nat → Bool) (hash : Map Nat Nat) (hs : Nat → Option Word) (m : Nat → M) : Prop :=
  ∀ g h, Takes c reg hash g h → (m g).name = c.name g ∧ ∃ w, (m g).hash hs = .ok w ∧ h = w.toNat

/-- **C44, which modules are merged**: after `uniquify_generators` two generators that had one name have one module
name exactly when their bodies have the same hash. -/
theorem merged_iff (kw : Gen.Name → Bool) (hash : Map Nat Nat) (tracked : Option (Nat → Bool))
    (ord : List Nat → List Nat) (hord : ∀ l, (ord l).Perm l) (c : Gen.Ctx) (reg : Nat → Bool)
    (hreach : CReach kw (fun c reg o => o.safe c reg) c reg) (hne : ∀ g, reg g = true → c.name g ≠ [])
    (names : List Gen.Name) (hnames : names.Perm c.modules.keys) (c' : Gen.Ctx)
    (hok : uniquify hash tracked ord names c = .ok c')
    (hs : Nat → Option Word) (m : Nat → M) (hm : Hashed c reg hash hs m)
    (g1 h1 g2 h2 : Nat) (t1 : Takes c reg hash g1 h1) (t2 : Takes c reg hash g2 h2) (hname : c.name g1 = c.name g2) :
    c'.name g1 = c'.name g2 ↔ (m g1).hash hs = (m g2).hash hs := by
  rw [(uniquify_names_partial kw hash tracked ord hord c reg hreach hne names hnames c' hok).1 g1 h1 g2 h2 t1 t2]
  obtain ⟨-, w1, e1, rfl⟩ := hm g1 h1 t1
  obtain ⟨-, w2, e2, rfl⟩ := hm g2 h2 t2
  rw [e1, e2]
  constructor
  · rintro ⟨-, e⟩
    rw [BitVec.eq_of_toNat_eq e]
  · intro e
    exact ⟨hname, congrArg BitVec.toNat (Res.ok.inj e)⟩

/-- **C44**, the full claim: generators of one name that end up with one module name have the same body. -/
def MergeClaim : Prop :=
  ∀ (kw : Gen.Name → Bool) (hash : Map Nat Nat) (tracked : Option (Nat → Bool))
    (ord : List Nat → List Nat), (∀ l, (ord l).Perm l) → ∀ (c : Gen.Ctx) (reg : Nat → Bool),
    CReach kw (fun c reg o => o.safe c reg) c reg → (∀ g, reg g = true → c.name g ≠ []) →
    ∀ (names : List Gen.Name), names.Perm c.modules.keys → ∀ (c' : Gen.Ctx),
    uniquify hash tracked ord names c = .ok c' →
    ∀ (hs : Nat → Option Word) (m : Nat → M), Hashed c reg hash hs m →
    ∀ g1 h1 g2 h2, Takes c reg hash g1 h1 → Takes c reg hash g2 h2 → c.name g1 = c.name g2 →
    c'.name g1 = c'.name g2 → m g1 = m g2

/-- Two generators named `a`. -/
def two : Gen.Ctx × (Nat → Bool) := cops noKw emptyCtx (fun _ => false) [.create nA, .create nA]

theorem two_reach : CReach noKw (fun c reg o => o.safe c reg) two.1 two.2 := by
  refine creach_cops _ emptyCtx (fun _ => false) CReach.init ?_ ?_
  · intro c reg o ho
    simp only [List.mem_cons, List.not_mem_nil, or_false] at ho
    rcases ho with rfl | rfl <;> trivial
  · intro i hi
    match i, hi with
    | 0, _ => trivial
    | 1, _ => trivial

def v8 (n : Str) : V := .var none n 8 none
def ports : List Decl := [⟨['a'], .input, 8, false⟩, ⟨['b'], .input, 8, false⟩, ⟨['y'], .output, 8, false⟩]
/-- `assign y = l - r`. -/
def sub (l r : Str) : M := .mk nA ports (.cons (.assign false (v8 ['y']) (.bin 8 (v8 l) (v8 r))) .nil) .nil .nil

/-- `y = a - b` and `y = b - a`. -/
theorem sub_like : LikeM (sub ['a'] ['b']) (sub ['b'] ['a']) :=
  .mk _ rfl (.cons (.assign _ _ (.refl _) (.swap ..)) .nil) .nil .nil

theorem sub_hash : ∃ w, (sub ['a'] ['b']).hash (fun _ => none) = .ok w := ⟨_, rfl⟩

/-- **C44 is false**: a module that computes `a - b` and one that computes `b - a`, both called `a`, are given one
module name: one of the two instances computes the negative. -/
theorem not_MergeClaim : ¬ MergeClaim := by
  intro hc
  obtain ⟨w, hw⟩ := sub_hash
  have hw' := like_same_hash (fun _ => none) sub_like
  rw [hw] at hw'
  have hne : ∀ g, two.2 g = true → two.1.name g ≠ [] := by
    intro g hg
    have hb := (idx_reach two_reach).bound g hg
    have : two.1.next = 2 := by decide +kernel
    rw [this] at hb
    match g, hb with
    | 0, _ => decide +kernel
    | 1, _ => decide +kernel
  let m : Nat → M := fun g => if g = 0 then sub ['a'] ['b'] else sub ['b'] ['a']
  let hash : Map Nat Nat := [(0, w.toNat), (1, w.toNat)]
  obtain ⟨c', hok⟩ := uniquify_terminates noKw hash none id (fun l => .refl l) two.1 two.2 two_reach hne
    two.1.modules.keys (.refl _) (by decide +kernel)
  have ext : ∀ g, g < 2 → two.1.ext g = false := by decide +kernel
  have reg : ∀ g, g < 2 → two.2 g = true := by decide +kernel
  have hash0 : hash.find 0 = some w.toNat := rfl
  have hash1 : hash.find 1 = some w.toNat := rfl
  have t0 : Takes two.1 two.2 hash 0 w.toNat := ⟨reg 0 (by omega), ext 0 (by omega), hash0⟩
  have t1 : Takes two.1 two.2 hash 1 w.toNat := ⟨reg 1 (by omega), ext 1 (by omega), hash1⟩
  have hm : Hashed two.1 two.2 hash (fun _ => none) m := by
    intro g h ht
    have hb := (idx_reach two_reach).bound g ht.1
    have : two.1.next = 2 := by decide +kernel
    rw [this] at hb
    match g, hb, ht with
    | 0, _, ht => exact ⟨by decide +kernel, w, hw, by have := ht.2.2; rw [hash0] at this; exact (Option.some.inj this).symm⟩
    | 1, _, ht => exact ⟨by decide +kernel, w, hw'.symm, by have := ht.2.2; rw [hash1] at this; exact (Option.some.inj this).symm⟩
  have hn : two.1.name 0 = two.1.name 1 := by decide +kernel
  have hmerge := (merged_iff noKw hash none id (fun l => .refl l) two.1 two.2 two_reach hne two.1.modules.keys (.refl _) c' hok
    (fun _ => none) m hm 0 w.toNat 1 w.toNat t0 t1 hn).2 (hw.trans hw')
  have := hc noKw hash none id (fun l => .refl l) two.1 two.2 two_reach hne two.1.modules.keys (.refl _) c' hok
    (fun _ => none) m hm 0 w.toNat 1 w.toNat t0 t1 hn hmerge
  have : sub ['a'] ['b'] = sub ['b'] ['a'] := this
  simp [sub, v8] at this

/-! ### More of what is merged, and cases that meet the hypotheses -/

/-- A statement moves from one branch to the other and `=` becomes `<=`. -/
example (c : Str) (y a : V) : LikeSs
    (.cons (.block .comb (.cons (.ite c (.cons (.assign false y a) .nil) .nil) .nil)) .nil)
    (.cons (.block .comb (.cons (.ite c .nil (.cons (.assign true y a) .nil)) .nil)) .nil) :=
  .cons (.block (.refl _) (.cons (.ite c (.cons (.assign _ _ (.refl _) (.refl _)) .nil)) .nil)) .nil

/-- Two cases with their labels exchanged. -/
example (t : Str) (a b : Ss) (ha : LikeSs a a) (hb : LikeSs b b) : LikeS
    (.switch t (.cons (some 0#64) a (.cons (some 1#64) b .nil)))
    (.switch t (.cons (some 2#64) a (.cons (some 7#64) b .nil))) :=
  .switch t (.cons _ _ ha (.cons _ _ hb .nil))

/-- Two instances with crossed connections: `c1.in = p; c2.in = q` and `c2.in = p; c1.in = q`. -/
example (p q : V) : LikeSs
    (.cons (.assign false (.var (some ['c', '1']) ['i', 'n'] 8 none) p)
      (.cons (.assign false (.var (some ['c', '2']) ['i', 'n'] 8 none) q) .nil))
    (.cons (.assign false (.var (some ['c', '2']) ['i', 'n'] 8 none) p)
      (.cons (.assign false (.var (some ['c', '1']) ['i', 'n'] 8 none) q) .nil)) :=
  .cons (.assign _ _ (.owner ..) (.refl _)) (.cons (.assign _ _ (.owner ..) (.refl _)) .nil)

/-- Another loop range, other port directions. -/
example (b : Ss) (hb : LikeSs b b) : LikeM
    (.mk nA [⟨['a'], .input, 8, false⟩] (.cons (.loop ['i'] 0 4 1 b) .nil) .nil .nil)
    (.mk nA [⟨['a'], .output, 16, true⟩] (.cons (.loop ['i'] 1 9 2 b) .nil) .nil .nil) :=
  .mk _ rfl (.cons (.loop _ _ _ _ _ _ _ _ hb) .nil) .nil .nil

/-- `always_comb begin if (c) y = 1; end`: three entries. -/
example : ∃ ws, (Ctx.at_ (.blockOf .nil .comb (.thenOf .nil ['c'] (.here .nil .nil) .nil .nil) .nil)
    (.assign false (v8 ['y']) (.const 1#64 8))).entries (fun _ => none) 1 = .ok ws ∧ ws.length ≤ 3 := ⟨_, rfl, by decide⟩

/-- A known value of the name hash (FNV-1a of "a"). -/
example : fnv ['a'] = 0xaf63dc4c8601ec8c#64 := by decide +kernel

end Kratos.ModHash
