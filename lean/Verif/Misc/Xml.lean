import Verif.Fsm.Diagram

/-!
# The XML writer of the coverage report

Model of the class `XMLWriter` (src/fault.cc:200-300): the calls, the text they write, and reading
the text back.  Numbers are written as the texts `format` gives; the template `attr` is the call
`attr` with such a text.
-/

namespace Kratos.Xml
open Kratos.Diagram (pieces pieces_line pieces_last)

abbrev Txt := List Char

/-! ## Model -/

/-- The members of `XMLWriter`, src/fault.cc:259-265; `out` is what the stream has received. -/
structure Wr where
  out : Txt
  tagOpen : Bool
  newLine : Bool
  /-- `elt_stack_`, the top first -/
  stack : List Txt
  deriving DecidableEq

/-- `HEADER_`, src/fault.cc:263. -/
def xmlHeader : Txt :=
  ['<', '?', 'x', 'm', 'l', ' ', 'v', 'e', 'r', 's', 'i', 'o', 'n', '=', '\"', '1', '.', '0', '\"', ' ', 'e', 'n', 'c', 'o', 'd', 'i', 'n', 'g', '=', '\"', 'u', 't', 'f', '-', '8', '\"', '?', '>'] ++ ['\n']

/-- The constructor, src/fault.cc:204-207. -/
def start (header : Txt) : Wr := ⟨xmlHeader ++ (header ++ ['\n']), false, true, []⟩

/-- `close_tag`, src/fault.cc:267-272. -/
def closeTag (w : Wr) : Wr := if w.tagOpen then { w with out := w.out ++ ['>'], tagOpen := false } else w

/-- `indent`, src/fault.cc:274-278. -/
def indent (n : Nat) : Txt := (List.replicate n [' ', ' ', ' ', ' ']).flatten

/-- One character of `write_escape`, src/fault.cc:283-303. -/
def escChar (c : Char) : Txt :=
  if c = '&' then ['&', 'a', 'm', 'p', ';']
  else if c = '<' then ['&', 'l', 't', ';']
  else if c = '>' then ['&', 'g', 't', ';']
  else if c = '\'' then ['&', 'a', 'p', 'o', 's', ';']
  else if c = '"' then ['&', 'q', 'u', 'o', 't', ';']
  else [c]

/-- `write_escape`, src/fault.cc:283-303. -/
def escape (s : Txt) : Txt := s.flatMap escChar

/-- The calls of the writer. -/
inductive Call where
  | openElt (tag : Txt)
  | closeElt
  | closeAll
  | attr (key value : Txt)
  | content (text : Txt)

/-- `close_elt`, src/fault.cc:220-231; `top` of an empty stack is undefined. -/
def closeElt (w : Wr) : Res Wr :=
  let w := closeTag w
  match w.stack with
  | [] => .ub
  | elt :: st =>
    .ok { out := w.out ++ (if w.newLine then '\n' :: indent st.length else []) ++
            '<' :: '/' :: (elt ++ ['>']),
          stack := st, tagOpen := w.tagOpen, newLine := true }

/-- `close_all`, src/fault.cc:233-236: every `close_elt` takes one element off the stack, so the loop runs
as often as the stack is deep. -/
def closeN : Nat → Wr → Res Wr
  | 0, w => .ok w
  | n + 1, w => (closeElt w).bind (closeN n)

/-- src/fault.cc:209-256. -/
def call (w : Wr) : Call → Res Wr
  | .openElt tag =>
    let w := closeTag w
    .ok { out := w.out ++ (if w.stack.isEmpty then [] else ['\n']) ++ indent w.stack.length ++
            '<' :: tag,
          stack := tag :: w.stack, tagOpen := true, newLine := false }
  | .closeElt => closeElt w
  | .closeAll => closeN w.stack.length w
  | .attr key value =>
    .ok { w with out := w.out ++ ' ' :: (key ++ '=' :: '"' :: (escape value ++ ['"'])) }
  | .content text =>
    let w := closeTag w
    .ok { w with out := w.out ++ escape text }

def calls (w : Wr) : List Call → Res Wr
  | [] => .ok w
  | c :: cs => (call w c).bind fun w => calls w cs

/-! ## Specification: documents, the calls that write one, and reading -/

/-- A sequence of elements: each has attributes and either a text or elements inside. -/
inductive Doc where
  | nil
  | leaf (tag : Txt) (attrs : List (Txt × Txt)) (text : Txt) (next : Doc)
  | elt (tag : Txt) (attrs : List (Txt × Txt)) (kids next : Doc)

/-- The calls that write the elements in order. -/
def Doc.calls : Doc → List Call
  | .nil => []
  | .leaf tag attrs text next =>
    .openElt tag :: (attrs.map fun a => .attr a.1 a.2) ++ [.content text, .closeElt] ++ next.calls
  | .elt tag attrs kids next =>
    .openElt tag :: (attrs.map fun a => .attr a.1 a.2) ++ kids.calls ++ .closeElt :: next.calls

/-- What a reader of XML reports. -/
inductive Ev where
  | start (tag : Txt) (attrs : List (Txt × Txt))
  | stop (tag : Txt)
  | text (t : Txt)
  deriving DecidableEq

/-- White space. -/
def blank (t : Txt) : Bool := t.all fun c => c == ' ' || c == '\n' || c == '\t' || c == '\r'

/-- The events of a document; white space alone is no text. -/
def Doc.events : Doc → List Ev
  | .nil => []
  | .leaf tag attrs text next =>
    .start tag attrs :: (if blank text then [] else [.text text]) ++ .stop tag :: next.events
  | .elt tag attrs kids next => .start tag attrs :: kids.events ++ .stop tag :: next.events

/-- Entities to characters. -/
def unescape : Txt → Txt
  | '&' :: 'a' :: 'm' :: 'p' :: ';' :: r => '&' :: unescape r
  | '&' :: 'l' :: 't' :: ';' :: r => '<' :: unescape r
  | '&' :: 'g' :: 't' :: ';' :: r => '>' :: unescape r
  | '&' :: 'a' :: 'p' :: 'o' :: 's' :: ';' :: r => '\'' :: unescape r
  | '&' :: 'q' :: 'u' :: 'o' :: 't' :: ';' :: r => '"' :: unescape r
  | c :: r => c :: unescape r
  | [] => []

/-- `k="v"` pairs: the pieces between quotes are taken in turn. -/
def pairUp : List Txt → List (Txt × Txt)
  | k :: v :: r => (k.tail.dropLast, unescape v) :: pairUp r
  | _ => []

/-- What stands between `<` and `>`. -/
def readTag (t : Txt) : List Ev :=
  match t with
  | '?' :: _ => []
  | '!' :: _ => []
  | '/' :: r => [.stop r]
  | _ => [.start (t.takeWhile (· ≠ ' ')) (pairUp (pieces '"' (t.dropWhile (· ≠ ' '))))]

def readText (t : Txt) : List Ev := if blank t then [] else [.text (unescape t)]

/-- The reader: inside or outside of a tag, with what has been read of it. -/
def read : Bool → Txt → Txt → List Ev
  | false, acc, [] => readText acc
  | true, _, [] => []
  | false, acc, c :: cs => if c = '<' then readText acc ++ read true [] cs else read false (acc ++ [c]) cs
  | true, acc, c :: cs => if c = '>' then readTag acc ++ read false [] cs else read true (acc ++ [c]) cs

/-- A text that can be the name of an element or an attribute. -/
def NameText (t : Txt) : Prop :=
  t ≠ [] ∧ ∀ c ∈ t, c ≠ ' ' ∧ c ≠ '<' ∧ c ≠ '>' ∧ c ≠ '"' ∧ c ≠ '?' ∧ c ≠ '!' ∧ c ≠ '/'

/-- Names are names; values and texts are free. -/
def Doc.named : Doc → Prop
  | .nil => True
  | .leaf tag attrs _ next => NameText tag ∧ (∀ a ∈ attrs, NameText a.1) ∧ next.named
  | .elt tag attrs kids next =>
    NameText tag ∧ (∀ a ∈ attrs, NameText a.1) ∧ kids.named ∧ next.named

/-! ## Lemmas -/

theorem escChar_clean (c : Char) : ∀ x ∈ escChar c, x ≠ '<' ∧ x ≠ '>' ∧ x ≠ '"' := by
  unfold escChar
  split
  · decide
  · split
    · decide
    · split
      · decide
      · split
        · decide
        · split
          · decide
          · intro x hx
            rw [List.mem_singleton] at hx
            subst hx
            exact ⟨by assumption, by assumption, by assumption⟩

theorem escape_clean (s : Txt) : ∀ x ∈ escape s, x ≠ '<' ∧ x ≠ '>' ∧ x ≠ '"' := by
  intro x hx
  obtain ⟨c, _, hx⟩ := List.mem_flatMap.1 hx
  exact escChar_clean c x hx

theorem unescape_other {c : Char} (h : c ≠ '&') (r : Txt) : unescape (c :: r) = c :: unescape r := by
  rw [unescape.eq_def]
  split <;> simp_all

theorem unescape_escape : ∀ (s : Txt), unescape (escape s) = s
  | [] => rfl
  | c :: s => by
    have ih := unescape_escape s
    have e : escape (c :: s) = escChar c ++ escape s := by simp [escape]
    rw [e]
    unfold escChar
    split
    · rename_i h; subst h
      show '&' :: unescape (escape s) = _
      rw [ih]
    · split
      · rename_i h; subst h
        show '<' :: unescape (escape s) = _
        rw [ih]
      · split
        · rename_i h; subst h
          show '>' :: unescape (escape s) = _
          rw [ih]
        · split
          · rename_i h; subst h
            show '\'' :: unescape (escape s) = _
            rw [ih]
          · split
            · rename_i h; subst h
              show '"' :: unescape (escape s) = _
              rw [ih]
            · rename_i h _ _ _ _
              show unescape (c :: escape s) = _
              rw [unescape_other h, ih]

theorem blank_escape (s : Txt) : blank (escape s) = blank s := by
  induction s with
  | nil => rfl
  | cons c s ih =>
    have e : escape (c :: s) = escChar c ++ escape s := by simp [escape]
    rw [e]
    unfold blank at *
    rw [List.all_append, ih, List.all_cons]
    congr 1
    unfold escChar
    split
    · rename_i h; subst h; rfl
    · split
      · rename_i h; subst h; rfl
      · split
        · rename_i h; subst h; rfl
        · split
          · rename_i h; subst h; rfl
          · split
            · rename_i h; subst h; rfl
            · simp

/-- Attributes as they are written. -/
def attrText (attrs : List (Txt × Txt)) : Txt :=
  attrs.flatMap fun a => ' ' :: (a.1 ++ '=' :: '"' :: (escape a.2 ++ ['"']))

/-- What the elements of a document look like at a depth; `top` says that nothing encloses them. -/
def Doc.text : Nat → Doc → Txt
  | _, .nil => []
  | d, .leaf tag attrs text next =>
    (if d = 0 then [] else ['\n']) ++ indent d ++ '<' :: (tag ++ (attrText attrs ++ '>' ::
      (escape text ++ '<' :: '/' :: (tag ++ '>' :: next.text d))))
  | d, .elt tag attrs kids next =>
    (if d = 0 then [] else ['\n']) ++ indent d ++ '<' :: (tag ++ (attrText attrs ++ '>' ::
      (kids.text (d + 1) ++ ((match kids with | .nil => [] | _ => '\n' :: indent d) ++
        '<' :: '/' :: (tag ++ '>' :: next.text d)))))

theorem calls_append : ∀ (a b : List Call) (w : Wr), calls w (a ++ b) =
    (calls w a).bind fun w => calls w b
  | [], _, _ => rfl
  | c :: a, b, w => by
    simp only [List.cons_append, calls]
    cases call w c with
    | ok w' => exact calls_append a b w'
    | throw e => rfl
    | ub => rfl

theorem calls_attrs : ∀ (attrs : List (Txt × Txt)) (o : Txt) (a b : Bool) (st : List Txt),
    calls ⟨o, a, b, st⟩ (attrs.map fun a => .attr a.1 a.2) = .ok ⟨o ++ attrText attrs, a, b, st⟩
  | [], _, _, _, _ => by simp [calls, attrText]
  | x :: attrs, o, a, b, st => by
    simp only [List.map_cons, calls, call, Res.ok_bind, calls_attrs attrs, attrText,
      List.flatMap_cons, List.append_assoc]

theorem calls_closeN : ∀ (n : Nat) (w : Wr), calls w (List.replicate n .closeElt) = closeN n w
  | 0, _ => rfl
  | n + 1, w => by
    simp only [List.replicate_succ, calls, call, closeN]
    congr 1
    funext w
    exact calls_closeN n w

/-- The line break before an element. -/
def brk (d : Nat) : Txt := if d = 0 then [] else ['\n']

theorem call_open (w : Wr) (tag : Txt) : call w (.openElt tag) =
    .ok ⟨(closeTag w).out ++ (brk w.stack.length ++ (indent w.stack.length ++ '<' :: tag)), true,
      false, tag :: w.stack⟩ := by
  have hs : (closeTag w).stack = w.stack := by unfold closeTag; split <;> rfl
  simp only [call, hs, brk, List.append_assoc]
  cases w.stack <;> rfl

theorem call_content (o text : Txt) (b : Bool) (st : List Txt) :
    call ⟨o, true, b, st⟩ (.content text) = .ok ⟨o ++ '>' :: escape text, false, b, st⟩ := by
  simp [call, closeTag]

theorem call_close1 (o e : Txt) (st : List Txt) :
    call ⟨o, true, false, e :: st⟩ .closeElt =
      .ok ⟨o ++ '>' :: '<' :: '/' :: (e ++ ['>']), false, true, st⟩ := by
  simp [call, closeElt, closeTag]

theorem call_close2 (o e : Txt) (st : List Txt) :
    call ⟨o, false, false, e :: st⟩ .closeElt =
      .ok ⟨o ++ '<' :: '/' :: (e ++ ['>']), false, true, st⟩ := by
  simp [call, closeElt, closeTag]

theorem call_close3 (o e : Txt) (st : List Txt) :
    call ⟨o, false, true, e :: st⟩ .closeElt =
      .ok ⟨o ++ '\n' :: (indent st.length ++ '<' :: '/' :: (e ++ ['>'])), false, true, st⟩ := by
  simp [call, closeElt, closeTag]

/-- The writer after a document. -/
def afterDoc (D : Doc) (w : Wr) : Wr :=
  match D with
  | .nil => w
  | D => ⟨(closeTag w).out ++ D.text w.stack.length, false, true, w.stack⟩

theorem afterDoc_closed (D : Doc) (o : Txt) (st : List Txt) :
    afterDoc D ⟨o, false, true, st⟩ = ⟨o ++ D.text st.length, false, true, st⟩ := by
  cases D <;> simp [afterDoc, closeTag, Doc.text]

/-- The line break before a closing tag. -/
def tailBrk (kids : Doc) (d : Nat) : Txt :=
  match kids with
  | .nil => []
  | _ => '\n' :: indent d

theorem close_kids (kids : Doc) (o e : Txt) (st : List Txt) :
    call (afterDoc kids ⟨o, true, false, e :: st⟩) .closeElt =
      .ok ⟨o ++ '>' :: (kids.text (st.length + 1) ++ (tailBrk kids st.length ++
        '<' :: '/' :: (e ++ ['>']))), false, true, st⟩ := by
  cases kids with
  | nil => rw [afterDoc, call_close1]; simp [Doc.text, tailBrk]
  | leaf => simp only [afterDoc, call_close3, closeTag, if_true]; simp [tailBrk]
  | elt => simp only [afterDoc, call_close3, closeTag, if_true]; simp [tailBrk]

theorem text_elt (tag : Txt) (attrs : List (Txt × Txt)) (kids next : Doc) (d : Nat) :
    (Doc.elt tag attrs kids next).text d = brk d ++ (indent d ++ '<' :: (tag ++ (attrText attrs ++
      '>' :: (kids.text (d + 1) ++ (tailBrk kids d ++ '<' :: '/' :: (tag ++ '>' ::
        next.text d)))))) := by
  simp only [Doc.text, brk, tailBrk, List.append_assoc, List.cons_append, List.nil_append]

theorem writes : ∀ (D : Doc) (w : Wr), calls w D.calls = .ok (afterDoc D w)
  | .nil, w => rfl
  | .leaf tag attrs text next, w => by
    have ih := writes next
    simp only [Doc.calls, List.cons_append, List.append_assoc, calls, call_open, Res.ok_bind,
      calls_append, calls_attrs, call_content, call_close2, List.nil_append, ih, afterDoc_closed]
    simp [afterDoc, Doc.text, brk]
  | .elt tag attrs kids next, w => by
    have ihk := writes kids
    have ih := writes next
    simp only [Doc.calls, List.cons_append, List.append_assoc, calls, call_open, Res.ok_bind,
      calls_append, calls_attrs, ihk, close_kids, List.nil_append, ih, afterDoc_closed]
    simp [afterDoc, text_elt]

/-! ## Reading -/

theorem read_tag : ∀ (t acc r : Txt), (∀ c ∈ t, c ≠ '>') →
    read true acc (t ++ '>' :: r) = readTag (acc ++ t) ++ read false [] r
  | [], acc, r, _ => by simp [read]
  | c :: t, acc, r, h => by
    have hc := h c List.mem_cons_self
    rw [List.cons_append, read, if_neg hc, read_tag t _ r fun x hx => h x (List.mem_cons_of_mem _ hx)]
    simp

theorem read_text : ∀ (t acc r : Txt), (∀ c ∈ t, c ≠ '<') →
    read false acc (t ++ '<' :: r) = readText (acc ++ t) ++ read true [] r
  | [], acc, r, _ => by simp [read]
  | c :: t, acc, r, h => by
    have hc := h c List.mem_cons_self
    rw [List.cons_append, read, if_neg hc, read_text t _ r fun x hx => h x (List.mem_cons_of_mem _ hx)]
    simp

theorem attrText_clean {attrs : List (Txt × Txt)} (h : ∀ a ∈ attrs, NameText a.1) :
    ∀ c ∈ attrText attrs, c ≠ '>' := by
  intro c hc
  obtain ⟨a, ha, hc⟩ := List.mem_flatMap.1 hc
  simp only [List.mem_cons, List.mem_append, List.not_mem_nil, or_false] at hc
  rcases hc with rfl | hc | rfl | rfl | hc | rfl
  · decide
  · exact ((h a ha).2 c hc).2.2.1
  · decide
  · decide
  · exact (escape_clean _ c hc).2.1
  · decide

theorem pairs : ∀ (attrs : List (Txt × Txt)), (∀ a ∈ attrs, NameText a.1) →
    pairUp (pieces '"' (attrText attrs)) = attrs
  | [], _ => rfl
  | a :: attrs, h => by
    have ha := h a List.mem_cons_self
    have e : attrText (a :: attrs) = (' ' :: (a.1 ++ ['='])) ++ '"' :: (escape a.2 ++ '"' ::
        attrText attrs) := by simp [attrText]
    have h1 : '"' ∉ ' ' :: (a.1 ++ ['=']) := by
      simp only [List.mem_cons, List.mem_append, List.not_mem_nil, or_false, not_or]
      exact ⟨by decide, fun hm => (ha.2 _ hm).2.2.2.1 rfl, by decide⟩
    have h2 : '"' ∉ escape a.2 := fun hm => (escape_clean _ _ hm).2.2 rfl
    rw [e, pieces_line h1, pieces_line h2, pairUp, unescape_escape,
      pairs attrs fun x hx => h x (List.mem_cons_of_mem _ hx)]
    simp

theorem tw_all {p : Char → Bool} : ∀ {t : Txt}, (∀ c ∈ t, p c = true) → t.takeWhile p = t
  | [], _ => rfl
  | c :: t, h => by
    rw [List.takeWhile_cons, if_pos (h c List.mem_cons_self),
      tw_all fun x hx => h x (List.mem_cons_of_mem _ hx)]

theorem dw_all {p : Char → Bool} : ∀ {t : Txt}, (∀ c ∈ t, p c = true) → t.dropWhile p = []
  | [], _ => rfl
  | c :: t, h => by
    rw [List.dropWhile_cons, if_pos (h c List.mem_cons_self),
      dw_all fun x hx => h x (List.mem_cons_of_mem _ hx)]

theorem readTag_start {tag : Txt} {attrs : List (Txt × Txt)} (ht : NameText tag)
    (ha : ∀ a ∈ attrs, NameText a.1) : readTag (tag ++ attrText attrs) = [.start tag attrs] := by
  obtain ⟨hne, hc⟩ := ht
  have hsp : ∀ c ∈ tag, decide (c ≠ ' ') = true := fun c h => decide_eq_true (hc c h).1
  have key : (tag ++ attrText attrs).takeWhile (fun c => decide (c ≠ ' ')) = tag ∧
      (tag ++ attrText attrs).dropWhile (fun c => decide (c ≠ ' ')) = attrText attrs := by
    cases attrs with
    | nil =>
      simp only [attrText, List.flatMap_nil, List.append_nil]
      exact ⟨tw_all hsp, dw_all hsp⟩
    | cons a attrs =>
      exact Diagram.tw (p := fun c => decide (c ≠ ' ')) hsp (by decide)
  cases tag with
  | nil => exact absurd rfl hne
  | cons x tag =>
    have hx := hc x List.mem_cons_self
    rw [List.cons_append] at key ⊢
    unfold readTag
    split
    · rename_i heq; cases heq; exact absurd rfl hx.2.2.2.2.1
    · rename_i heq; cases heq; exact absurd rfl hx.2.2.2.2.2.1
    · rename_i heq; cases heq; exact absurd rfl hx.2.2.2.2.2.2
    · rw [key.1, key.2, pairs attrs ha]

theorem blank_indent (d : Nat) : blank (indent d) = true := by
  unfold blank indent
  rw [List.all_eq_true]
  intro c hc
  obtain ⟨l, hl, hc⟩ := List.mem_flatten.1 hc
  rw [(List.mem_replicate.1 hl).2] at hc
  simp at hc
  simp [hc]

theorem indent_clean (d : Nat) : ∀ c ∈ indent d, c ≠ '<' := by
  intro c hc
  obtain ⟨l, hl, hc⟩ := List.mem_flatten.1 hc
  rw [(List.mem_replicate.1 hl).2] at hc
  simp at hc
  subst hc
  decide

theorem name_gt {tag : Txt} (ht : NameText tag) : ∀ c ∈ tag, c ≠ '>' := fun c h => (ht.2 c h).2.2.1

/-- Opening tag with the white space before it. -/
theorem read_open (d : Nat) {tag : Txt} {attrs : List (Txt × Txt)} (ht : NameText tag)
    (ha : ∀ a ∈ attrs, NameText a.1) (r : Txt) :
    read false [] (brk d ++ (indent d ++ '<' :: (tag ++ (attrText attrs ++ '>' :: r)))) =
      .start tag attrs :: read false [] r := by
  have h1 : ∀ c ∈ brk d ++ indent d, c ≠ '<' := by
    intro c hc
    rcases List.mem_append.1 hc with hc | hc
    · unfold brk at hc
      split at hc
      · cases hc
      · rw [List.mem_singleton] at hc; subst hc; decide
    · exact indent_clean d c hc
  have h2 : blank (brk d ++ indent d) = true := by
    unfold blank
    rw [List.all_append, Bool.and_eq_true]
    refine ⟨?_, blank_indent d⟩
    unfold brk; split <;> rfl
  have h3 : ∀ c ∈ tag ++ attrText attrs, c ≠ '>' := by
    intro c hc
    rcases List.mem_append.1 hc with hc | hc
    · exact name_gt ht c hc
    · exact attrText_clean ha c hc
  rw [← List.append_assoc, read_text _ _ _ h1, List.nil_append, readText, if_pos h2,
    List.nil_append, ← List.append_assoc, read_tag _ _ _ h3, List.nil_append, readTag_start ht ha]
  rfl

theorem read_close {tag : Txt} (ht : NameText tag) (r : Txt) :
    read true [] ('/' :: (tag ++ '>' :: r)) = .stop tag :: read false [] r := by
  have h3 : ∀ c ∈ '/' :: tag, c ≠ '>' := by
    intro c hc
    rcases List.mem_cons.1 hc with rfl | hc
    · decide
    · exact name_gt ht c hc
  rw [← List.cons_append, read_tag _ _ _ h3]
  rfl

theorem read_tail (kids : Doc) (d : Nat) (r : Txt) :
    read false [] (tailBrk kids d ++ '<' :: r) = read true [] r := by
  have hc : ∀ c ∈ tailBrk kids d, c ≠ '<' := by
    intro c hc
    unfold tailBrk at hc
    split at hc
    · cases hc
    · rcases List.mem_cons.1 hc with rfl | hc
      · decide
      · exact indent_clean d c hc
  have hb : blank (tailBrk kids d) = true := by
    unfold tailBrk
    split
    · rfl
    · have := blank_indent d
      unfold blank at this ⊢
      rw [List.all_cons, this]
      rfl
  rw [read_text _ _ _ hc, List.nil_append, readText, if_pos hb]
  rfl

theorem read_doc : ∀ (D : Doc) (d : Nat) (r : Txt), D.named → 
    read false [] (D.text d ++ r) = D.events ++ read false [] r
  | .nil, _, _, _ => rfl
  | .leaf tag attrs text next, d, r, h => by
    obtain ⟨h1, h2, h3⟩ := h
    have e : (Doc.leaf tag attrs text next).text d ++ r = brk d ++ (indent d ++ '<' :: (tag ++
        (attrText attrs ++ '>' :: (escape text ++ '<' :: '/' :: (tag ++ '>' ::
          (next.text d ++ r)))))) := by simp [Doc.text, brk]
    rw [e, read_open d h1 h2, read_text _ _ _ fun c hc => (escape_clean _ c hc).1, List.nil_append,
      read_close h1, read_doc next d r h3, readText, blank_escape, unescape_escape]
    simp [Doc.events]
  | .elt tag attrs kids next, d, r, h => by
    obtain ⟨h1, h2, h3, h4⟩ := h
    have e : (Doc.elt tag attrs kids next).text d ++ r = brk d ++ (indent d ++ '<' :: (tag ++
        (attrText attrs ++ '>' :: (kids.text (d + 1) ++ (tailBrk kids d ++
          '<' :: '/' :: (tag ++ '>' :: (next.text d ++ r))))))) := by simp [text_elt]
    rw [e, read_open d h1 h2, read_doc kids (d + 1) _ h3, read_tail, read_close h1, read_doc next d r h4]
    simp [Doc.events]

theorem read_xmlHeader (r : Txt) : read false [] (xmlHeader ++ r) = read false ['\n'] r := by
  rfl

/-- **What is written reads back**: whatever texts the values of the attributes and the contents
are, the document an XML reader sees is the one that was written. -/
theorem document_reads_back (D : Doc) (h : D.named) (header : Txt)
    (hh : ∀ c ∈ header, c ≠ '<' ∧ c ≠ '>') :
    ∃ w, calls (start ('<' :: '!' :: (header ++ ['>']))) D.calls = .ok w ∧ w.stack = [] ∧
      (D.calls ≠ [] → w.tagOpen = false) ∧ read false [] w.out = D.events := by
  refine ⟨_, writes D _, ?_, ?_, ?_⟩
  · cases D <;> rfl
  · cases D <;> simp [afterDoc, start, Doc.calls]
  · have e : (afterDoc D (start ('<' :: '!' :: (header ++ ['>'])))).out =
        xmlHeader ++ ('<' :: '!' :: (header ++ '>' :: '\n' :: D.text 0)) := by
      rw [start, afterDoc_closed]
      simp
    have h3 : ∀ c ∈ '!' :: header, c ≠ '>' := by
      intro c hc
      rcases List.mem_cons.1 hc with rfl | hc
      · decide
      · exact (hh c hc).2
    have h4 : ∀ acc r, blank acc = true → read false acc ('<' :: r) = read true [] r := by
      intro acc r ha
      simp [read, readText, ha]
    rw [e, read_xmlHeader, h4 _ _ rfl, ← List.cons_append, read_tag _ _ _ h3, List.nil_append]
    have h5 : readTag ('!' :: header) = [] := rfl
    rw [h5, List.nil_append]
    have h6 : ∀ (D : Doc), D.named → read false [] ('\n' :: D.text 0) = D.events := by
      intro D hD
      cases D with
      | nil => rfl
      | leaf tag attrs text next =>
        have := read_doc (.leaf tag attrs text next) 0 [] hD
        simp only [List.append_nil] at this
        rw [show read false [] [] = [] from rfl, List.append_nil] at this
        rw [← this]
        simp [Doc.text, indent, read, readText, blank]
      | elt tag attrs kids next =>
        have := read_doc (.elt tag attrs kids next) 0 [] hD
        simp only [List.append_nil] at this
        rw [show read false [] [] = [] from rfl, List.append_nil] at this
        rw [← this]
        simp [Doc.text, indent, read, readText, blank]
    exact h6 D h

/-- Hypotheses met: an element with an attribute, a text and an element inside another. -/
def sample : Doc :=
  .elt ['a'] [(['k'], ['<', '"', '&'])] (.leaf ['b'] [] ['x', ' ', '>', '\''] (.elt ['c'] [] .nil .nil)) .nil

example : sample.named ∧ ∃ w, calls (start (['<', '!'] ++ ['D', '>'])) sample.calls = .ok w ∧
    read false [] w.out = [.start ['a'] [(['k'], ['<', '"', '&'])], .start ['b'] [],
      .text ['x', ' ', '>', '\''], .stop ['b'], .start ['c'] [], .stop ['c'], .stop ['a']] :=
  ⟨by simp [sample, Doc.named, NameText], _, rfl, by decide +kernel⟩

end Kratos.Xml
