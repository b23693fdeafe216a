import Verif.Base

/-!
# C62: hashing in pieces

`XXHash64` (src/hash.cc:36-197). Bytes are `BitVec 8`; memory reads are little-endian, as on the machines the project
builds for (the source says "NOT endian-aware"). The buffer is the list of its first `bufferSize` bytes: the
bytes behind them are never read.
-/

namespace Kratos.XXHash

abbrev Byte := BitVec 8
abbrev Word := BitVec 64

/-- `Prime1` … `Prime5` (src/hash.cc:163-167). -/
def prime1 : Word := 11400714785074694791#64
def prime2 : Word := 14029467366897019727#64
def prime3 : Word := 1609587929392839161#64
def prime4 : Word := 9650029242287828579#64
def prime5 : Word := 2870177450012600261#64

/-- `rotateLeft` (src/hash.cc:177-179). -/
def rotl (x : Word) (n : Nat) : Word := (x <<< n) ||| (x >>> (64 - n))

/-- `processSingle` (src/hash.cc:182-184). -/
def processSingle (prev input : Word) : Word := rotl (prev + input * prime2) 31 * prime1

/-- A little-endian read of the given bytes as an unsigned 64-bit value. -/
def le : List Byte → Word
  | [] => 0#64
  | b :: bs => BitVec.ofNat 64 b.toNat ||| (le bs <<< 8)

/-- `*(uint64_t*)(p + 8 * i)`. -/
def lane (bs : List Byte) (i : Nat) : Word := le ((bs.drop (8 * i)).take 8)

/-- The members of the class (src/hash.cc:172-175). -/
structure Hasher where
  s0 : Word
  s1 : Word
  s2 : Word
  s3 : Word
  buf : List Byte
  total : Word

/-- The constructor (src/hash.cc:40-47). -/
def new (seed : Word) : Hasher := ⟨seed + prime1 + prime2, seed + prime2, seed, seed - prime1, [], 0#64⟩

/-- `process` (src/hash.cc:187-195), applied to the members. -/
def process (h : Hasher) (bs : List Byte) : Hasher :=
  { h with s0 := processSingle h.s0 (lane bs 0), s1 := processSingle h.s1 (lane bs 1),
           s2 := processSingle h.s2 (lane bs 2), s3 := processSingle h.s3 (lane bs 3) }

/-- `while (data <= stopBlock)` (src/hash.cc:84-88): while at least 32 bytes are left; returns the unread
bytes too. -/
def blocks (h : Hasher) (data : List Byte) : Hasher × List Byte :=
  if 32 ≤ data.length then blocks (process h data) (data.drop 32) else (h, data)
termination_by data.length
decreasing_by simp only [List.length_drop]; omega

/-- `XXHash64::add` (src/hash.cc:53-101) for a non-null pointer; the Boolean is the returned value. -/
def add (h : Hasher) (data : List Byte) : Hasher × Bool :=
  if data.length = 0 then (h, false)
  else
    let h := { h with total := h.total + BitVec.ofNat 64 data.length }
    if h.buf.length + data.length < 32 then ({ h with buf := h.buf ++ data }, true)
    else
      let (h, data) :=
        if 0 < h.buf.length then
          (process h (h.buf ++ data.take (32 - h.buf.length)), data.drop (32 - h.buf.length))
        else (h, data)
      let r := blocks h data
      ({ r.1 with buf := r.2 }, true)

/-- The 8-byte, 4-byte and 1-byte steps at the end of `hash` (src/hash.cc:127-139). -/
def tail1 (r : Word) : List Byte → Word
  | [] => r
  | b :: bs => tail1 (rotl (r ^^^ (BitVec.ofNat 64 b.toNat * prime5)) 11 * prime1) bs

def tail4 (r : Word) (bs : List Byte) : Word :=
  if 4 ≤ bs.length then tail1 (rotl (r ^^^ (le (bs.take 4) * prime1)) 23 * prime2 + prime3) (bs.drop 4) else tail1 r bs

def tail8 (r : Word) (bs : List Byte) : Word :=
  if 8 ≤ bs.length then tail8 (rotl (r ^^^ processSingle 0 (le (bs.take 8))) 27 * prime1 + prime4) (bs.drop 8)
  else tail4 r bs
termination_by bs.length
decreasing_by simp only [List.length_drop]; omega

/-- The final mixing (src/hash.cc:142-147). -/
def mix (r : Word) : Word :=
  let r := (r ^^^ (r >>> 33)) * prime2
  let r := (r ^^^ (r >>> 29)) * prime3
  r ^^^ (r >>> 32)

/-- Folding the four words (src/hash.cc:109-114). -/
def fold4 (s0 s1 s2 s3 : Word) : Word :=
  let r := rotl s0 1 + rotl s1 7 + rotl s2 12 + rotl s3 18
  let r := (r ^^^ processSingle 0 s0) * prime1 + prime4
  let r := (r ^^^ processSingle 0 s1) * prime1 + prime4
  let r := (r ^^^ processSingle 0 s2) * prime1 + prime4
  (r ^^^ processSingle 0 s3) * prime1 + prime4

/-- `XXHash64::hash()` (src/hash.cc:105-149). -/
def hash (h : Hasher) : Word :=
  let r := if 32#64 ≤ h.total then fold4 h.s0 h.s1 h.s2 h.s3 else h.s2 + prime5
  mix (tail8 (r + h.total) h.buf)

/-- Calls of `add`, one after the other. -/
def addAll (h : Hasher) : List (List Byte) → Hasher
  | [] => h
  | p :: ps => addAll (add h p).1 ps

/-- The static `XXHash64::hash(input, length, seed)` (src/hash.cc:156-160). -/
def hashOf (data : List Byte) (seed : Word) : Word := hash (add (new seed) data).1

/-! ### Specification: the published algorithm (XXH64), on a whole message -/

/-- The accumulators after all full 32-byte stripes: stripe `i` of the message is bytes `32 i … 32 i + 31`. -/
def specLanes (seed : Word) (msg : List Byte) : Nat → Hasher
  | 0 => new seed
  | n + 1 => process (specLanes seed msg n) (msg.drop (32 * n))

/-- XXH64 of the message: stripes, then the bytes behind the last full stripe. -/
def xxh64 (seed : Word) (msg : List Byte) : Word :=
  let n := msg.length / 32
  let a := specLanes seed msg n
  let r := if msg.length < 32 then seed + prime5 else fold4 a.s0 a.s1 a.s2 a.s3
  mix (tail8 (r + BitVec.ofNat 64 msg.length) (msg.drop (32 * n)))

/-! ### Proofs -/

attribute [local irreducible] processSingle fold4 mix prime1 prime2 prime3 prime4 prime5

theorem process_take (h : Hasher) (bs : List Byte) : process h (bs.take 32) = process h bs := by
  have : ∀ i, i < 4 → lane (bs.take 32) i = lane bs i := by
    intro i hi
    unfold lane
    rw [List.drop_take, List.take_take, Nat.min_eq_left (by omega)]
  unfold process
  rw [this 0 (by omega), this 1 (by omega), this 2 (by omega), this 3 (by omega)]

theorem process_append (h : Hasher) (a b : List Byte) (ha : 32 ≤ a.length) : process h (a ++ b) = process h a := by
  rw [← process_take h (a ++ b), List.take_append_of_le_length ha, process_take]

theorem process_total (h : Hasher) (bs : List Byte) : (process h bs).total = h.total := by unfold process; rfl

theorem specLanes_append (seed : Word) (msg more : List Byte) : ∀ n, 32 * n ≤ msg.length →
    specLanes seed (msg ++ more) n = specLanes seed msg n
  | 0, _ => rfl
  | n + 1, h => by
    simp only [specLanes]
    rw [specLanes_append seed msg more n (by omega), List.drop_append_of_le_length (by omega),
      process_append _ _ _ (by rw [List.length_drop]; omega)]

/-- Same accumulators. -/
def SameLanes (a b : Hasher) : Prop := a.s0 = b.s0 ∧ a.s1 = b.s1 ∧ a.s2 = b.s2 ∧ a.s3 = b.s3

theorem SameLanes.process {a b : Hasher} (h : SameLanes a b) (bs : List Byte) :
    SameLanes (process a bs) (process b bs) := by
  obtain ⟨h0, h1, h2, h3⟩ := h
  simp [SameLanes, XXHash.process, h0, h1, h2, h3]

theorem blocks_spec (seed : Word) (msg : List Byte) : ∀ (k n : Nat) (h : Hasher), msg.length = 32 * n + k → SameLanes h (specLanes seed msg n) →
    SameLanes (blocks h (msg.drop (32 * n))).1 (specLanes seed msg (msg.length / 32)) ∧
    (blocks h (msg.drop (32 * n))).2 = msg.drop (32 * (msg.length / 32)) ∧
    (blocks h (msg.drop (32 * n))).1.total = h.total := by
  intro k
  induction k using Nat.strongRecOn with
  | ind k ih =>
    intro n h hk hs
    rw [blocks]
    split
    · rename_i hl
      rw [List.length_drop] at hl
      have e : (msg.drop (32 * n)).drop 32 = msg.drop (32 * (n + 1)) := by
        rw [List.drop_drop]; congr 1
      rw [e]
      obtain ⟨h1, h2, h3⟩ := ih (k - 32) (by omega) (n + 1) (process h (msg.drop (32 * n))) (by omega) (hs.process _)
      exact ⟨h1, h2, h3.trans (process_total ..)⟩
    · rename_i hl
      rw [List.length_drop] at hl
      have : msg.length / 32 = n := by omega
      rw [this]
      exact ⟨hs, rfl, rfl⟩

/-- State after the message: accumulators of the full stripes, remainder, length. -/
structure Inv (seed : Word) (msg : List Byte) (h : Hasher) : Prop where
  lanes : SameLanes h (specLanes seed msg (msg.length / 32))
  buf : h.buf = msg.drop (32 * (msg.length / 32))
  total : h.total = BitVec.ofNat 64 msg.length

theorem Inv.new (seed : Word) : Inv seed [] (new seed) := ⟨⟨rfl, rfl, rfl, rfl⟩, rfl, rfl⟩

theorem Inv.add {seed : Word} {msg : List Byte} {h : Hasher} (hi : Inv seed msg h) (data : List Byte) :
    Inv seed (msg ++ data) (add h data).1 := by
  obtain ⟨hl, hb, ht⟩ := hi
  have hbl : h.buf.length = msg.length % 32 := by rw [hb, List.length_drop]; omega
  have htot : h.total + BitVec.ofNat 64 data.length = BitVec.ofNat 64 (msg ++ data).length := by
    rw [ht, List.length_append, BitVec.ofNat_add]
  unfold XXHash.add
  split
  · rename_i h0
    have : data = [] := List.length_eq_zero_iff.1 h0
    subst this
    rw [List.append_nil]
    exact ⟨hl, hb, ht⟩
  · rename_i h0
    simp only
    split
    · rename_i hlt
      rw [hbl] at hlt
      have hn : (msg ++ data).length / 32 = msg.length / 32 := by rw [List.length_append]; omega
      refine ⟨?_, ?_, htot⟩
      · rw [hn, specLanes_append _ _ _ _ (by omega)]
        exact hl
      · rw [hn, List.drop_append_of_le_length (by omega), ← hb]
    · rename_i hge
      rw [hbl] at hge
      have hlen := List.length_append (as := msg) (bs := data)
      by_cases hz : 0 < h.buf.length
      · simp only [if_pos hz]
        rw [hbl] at hz ⊢
        have hd : data.drop (32 - msg.length % 32) = (msg ++ data).drop (32 * (msg.length / 32 + 1)) := by
          rw [List.drop_append, List.drop_of_length_le (l := msg) (by omega), List.nil_append]
          congr 1
          omega
        have hp : (h.buf ++ data.take (32 - msg.length % 32)) = ((msg ++ data).drop (32 * (msg.length / 32))).take 32 := by
          rw [List.drop_append_of_le_length (by omega), ← hb, List.take_append, hbl]
          congr 1
          rw [List.take_of_length_le (by omega)]
        rw [hd, hp, process_take]
        have hs : SameLanes (process { h with total := h.total + BitVec.ofNat 64 data.length } ((msg ++ data).drop (32 * (msg.length / 32))))
            (specLanes seed (msg ++ data) (msg.length / 32 + 1)) := by
          simp only [specLanes]
          rw [specLanes_append _ _ _ _ (by omega)]
          exact SameLanes.process (a := { h with total := h.total + BitVec.ofNat 64 data.length }) hl _
        obtain ⟨h1, h2, h3⟩ := blocks_spec seed (msg ++ data) ((msg ++ data).length - 32 * (msg.length / 32 + 1)) (msg.length / 32 + 1) _ (by omega) hs
        exact ⟨h1, h2, h3.trans htot⟩
      · simp only [if_neg hz]
        have hm : 32 * (msg.length / 32) = msg.length := by omega
        have hd : data = (msg ++ data).drop (32 * (msg.length / 32)) := by
          rw [hm, List.drop_left]
        have hs : SameLanes { h with total := h.total + BitVec.ofNat 64 data.length } (specLanes seed (msg ++ data) (msg.length / 32)) := by
          rw [specLanes_append _ _ _ _ (by omega)]
          exact hl
        obtain ⟨h1, h2, h3⟩ := blocks_spec seed (msg ++ data) data.length (msg.length / 32) _ (by omega) hs
        rw [← hd] at h1 h2 h3
        exact ⟨h1, h2, h3.trans htot⟩

theorem Inv.addAll {seed : Word} : ∀ (ps : List (List Byte)) {msg : List Byte} {h : Hasher}, Inv seed msg h →
    Inv seed (msg ++ ps.flatten) (addAll h ps)
  | [], msg, h, hi => by simpa [XXHash.addAll] using hi
  | p :: ps, msg, h, hi => by
    have := Inv.addAll ps (hi.add p)
    rw [List.append_assoc] at this
    exact this

theorem hash_inv {seed : Word} {msg : List Byte} {a b : Hasher} (ha : Inv seed msg a) (hb : Inv seed msg b) : hash a = hash b := by
  obtain ⟨⟨a0, a1, a2, a3⟩, ab, at'⟩ := ha
  obtain ⟨⟨b0, b1, b2, b3⟩, bb, bt⟩ := hb
  unfold hash
  rw [a0, a1, a2, a3, ab, at', b0, b1, b2, b3, bb, bt]

/-- **C62**: for every seed and every way of cutting a message into pieces (empty ones included), adding the
pieces one by one gives the hash of the whole message. -/
theorem streaming (seed : Word) (ps : List (List Byte)) :
    hash (addAll (new seed) ps) = hashOf ps.flatten seed :=
  hash_inv (by simpa using (Inv.new seed).addAll ps) (by simpa using (Inv.new seed).add ps.flatten)

/-- Two ways of cutting the same bytes give the same hash, from any point of the stream on. -/
theorem streaming_from (seed : Word) (pre : List (List Byte)) (ps qs : List (List Byte)) (h : ps.flatten = qs.flatten) :
    hash (addAll (addAll (new seed) pre) ps) = hash (addAll (addAll (new seed) pre) qs) := by
  have h0 := (Inv.new seed).addAll pre
  have h1 := h0.addAll ps
  have h2 := h0.addAll qs
  rw [h] at h1
  exact hash_inv h1 h2

theorem toNat_small {n : Nat} (h : n < 2 ^ 64) : (BitVec.ofNat 64 n).toNat = n := by
  rw [BitVec.toNat_ofNat, Nat.mod_eq_of_lt h]

/-- **C62, which function**: the result is XXH64 of the message, for messages shorter than 2^64 bytes. -/
theorem is_xxh64 (seed : Word) (ps : List (List Byte)) (hlen : ps.flatten.length < 2 ^ 64) :
    hash (addAll (new seed) ps) = xxh64 seed ps.flatten := by
  obtain ⟨⟨h0, h1, h2, h3⟩, hb, ht⟩ := (Inv.new seed).addAll ps
  rw [List.nil_append] at h0 h1 h2 h3 hb ht
  unfold hash xxh64
  rw [h0, h1, h2, h3, hb, ht]
  have hc : (32#64 ≤ BitVec.ofNat 64 ps.flatten.length) ↔ ¬ ps.flatten.length < 32 := by
    rw [BitVec.le_def, toNat_small hlen, BitVec.toNat_ofNat]
    omega
  by_cases hl : ps.flatten.length < 32
  · have : ps.flatten.length / 32 = 0 := by omega
    simp only [hc, hl, not_true_eq_false, if_false, if_true, this]
    rfl
  · simp only [hc, hl, not_false_eq_true, if_false, if_true]

/-- An empty piece is reported and changes nothing. -/
theorem add_empty (h : Hasher) : add h [] = (h, false) := rfl

/-- A non-empty piece is accepted. -/
theorem add_nonempty (h : Hasher) (d : List Byte) (hd : d ≠ []) : (add h d).2 = true := by
  unfold add
  rw [if_neg (by simpa using hd)]
  simp only
  split <;> rfl

/-- The buffer never overflows its 32 bytes between calls: after any calls fewer than 32 bytes are kept. -/
theorem buffer_bound (seed : Word) (ps : List (List Byte)) : (addAll (new seed) ps).buf.length < 32 := by
  have h := ((Inv.new seed).addAll ps).buf
  rw [h, List.length_drop]
  omega

/-- A published test vector: XXH64 of the empty message with seed 0. -/
example : hashOf [] 0#64 = 0xEF46DB3751D8E999#64 := by
  unfold hashOf
  rw [add_empty]
  unfold hash tail8
  decide +kernel

/-- A published test vector: XXH64 of "abc" with seed 0. -/
example : xxh64 0#64 [0x61#8, 0x62#8, 0x63#8] = 0x44BC2CF5AD770999#64 := by
  unfold xxh64 tail8
  decide +kernel

end Kratos.XXHash
