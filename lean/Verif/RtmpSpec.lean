import Verif.Basic

/-!
# RTMP: what a sender writes

Sections 5.3.1 and 5.4.1 of the RTMP specification 1.0: the chunks of messages. Nothing here is taken from the code.
-/

namespace Verif.RtmpSpec

/-- A message. -/
structure Mess where
  csid : Nat
  ts : Nat
  type : Nat
  msid : Nat
  payload : List UInt8
deriving DecidableEq, Repr

def be24 (n : Nat) : List UInt8 := [UInt8.ofNat (n / 65536), UInt8.ofNat (n / 256), UInt8.ofNat n]

def be32 (n : Nat) : List UInt8 := [UInt8.ofNat (n / 16777216), UInt8.ofNat (n / 65536), UInt8.ofNat (n / 256), UInt8.ofNat n]

/-- The basic header (5.3.1.1): the ids from 64 to 319 have two forms. -/
inductive Basic (fmt : Nat) : Nat → List UInt8 → Prop where
  | one (c : Nat) : 2 ≤ c → c ≤ 63 → Basic fmt c [UInt8.ofNat (fmt * 64 + c)]
  | two (c : Nat) : 64 ≤ c → c ≤ 319 → Basic fmt c [UInt8.ofNat (fmt * 64), UInt8.ofNat (c - 64)]
  | three (c : Nat) : 64 ≤ c → c ≤ 65599 → Basic fmt c [UInt8.ofNat (fmt * 64 + 1), UInt8.ofNat ((c - 64) % 256), UInt8.ofNat ((c - 64) / 256)]

/-- The time fields are extended from here (5.3.1.3). -/
def big : Nat := 0xffffff

/-- The message header (5.3.1.2). `field` is the time or the difference of times. -/
def mhdr (fmt field : Nat) (m : Mess) : List UInt8 :=
  if fmt = 0 then be24 (min field big) ++ be24 m.payload.length ++ [UInt8.ofNat m.type] ++ (be32 m.msid).reverse
  else if fmt = 1 then be24 (min field big) ++ be24 m.payload.length ++ [UInt8.ofNat m.type]
  else if fmt = 2 then be24 (min field big)
  else []

/-- What the sender is allowed to do. -/
structure Terms where
  /-- Chunks of type 3 repeat the extended timestamp, as 5.3.1.3 demands. Some senders do not. -/
  rep : Bool
  /-- Times that need an extended timestamp are used. -/
  ext : Bool
  /-- A chunk of type 3 with an extended timestamp can follow after the start of a message on another chunk stream. -/
  mix : Bool
  /-- A new message can start with type 3 after one that started with type 0: the difference of times is then the time of the former
  (5.3.1.2.4). -/
  zero : Bool

/-- The extended timestamp (5.3.1.3). -/
def extTs (T : Terms) (fmt field : Nat) : List UInt8 := if big ≤ field ∧ (fmt ≤ 2 ∨ T.rep = true) then be32 field else []

/-- The last message that was started on a chunk stream. -/
structure Prev where
  ts : Nat
  len : Nat
  type : Nat
  msid : Nat
  field : Nat
  /-- It was started with type 0. -/
  abs : Bool
deriving DecidableEq, Repr

structure Lane where
  prev : Option Prev := none
  /-- The message that is being sent, and what is not sent yet. -/
  cur : Option (Mess × List UInt8) := none

/-- A new message can have a header of this type (5.3.1.2.1 to 5.3.1.2.4). -/
def Fits (T : Terms) (fmt field : Nat) (m : Mess) : Option Prev → Prop
  | none => fmt = 0 ∧ field = m.ts
  | some p => (fmt = 0 ∧ field = m.ts) ∨
      (1 ≤ fmt ∧ fmt ≤ 3 ∧ m.msid = p.msid ∧ m.ts = (p.ts + field) % 2 ^ 32 ∧
        (2 ≤ fmt → m.payload.length = p.len ∧ m.type = p.type) ∧ (fmt = 3 → field = p.field ∧ (T.zero = true ∨ p.abs = false)))

/-- The sender. -/
structure Sender where
  lanes : Nat → Lane := fun _ => {}
  size : Nat := 128
  /-- The time field of the message that was started last. -/
  last : Nat := 0
  /-- The messages that were sent, in the order of their last chunks. -/
  sent : List Mess := []

def Sender.put (S : Sender) (c : Nat) (l : Lane) : Sender := { S with lanes := fun d => if d = c then l else S.lanes d }

/-- After a chunk of the message `m` when `rest` is still to be sent. The peer's view of the chunk size follows the messages: `F` are
the sizes that messages set. -/
def Finish (F : List Mess → Option (List Nat)) (S : Sender) (c : Nat) (prev : Prev) (m : Mess) (rest : List UInt8) (S' : Sender) : Prop :=
  if rest = [] then
    ∃ sizes, F (S.sent ++ [m]) = some sizes ∧ (∀ n ∈ sizes, 1 ≤ n ∧ n ≤ 10485760) ∧
      S' = { S.put c ⟨some prev, none⟩ with sent := S.sent ++ [m], size := sizes.getLast?.getD S.size }
  else S' = S.put c ⟨some prev, some (m, rest)⟩

/-- One chunk (5.3.1). `maxId` is the number of chunk streams and `maxLen` the size of messages that the server allows. -/
inductive Sends (F : List Mess → Option (List Nat)) (T : Terms) (maxId maxLen : Nat) : Sender → List UInt8 → Sender → Prop where
  | first {S S' : Sender} (c fmt field : Nat) (b : List UInt8) (m : Mess) : m.csid = c → c < maxId → (S.lanes c).cur = none → Basic fmt c b →
      m.ts < 2 ^ 32 → m.type < 256 → m.msid < 2 ^ 32 → m.payload.length < 2 ^ 24 → m.payload.length ≤ maxLen → field < 2 ^ 32 →
      Fits T fmt field m (S.lanes c).prev → (T.ext = false → field < big) → (T.mix = false → fmt = 3 → big ≤ field → S.last = field) →
      Finish F { S with last := field } c ⟨m.ts, m.payload.length, m.type, m.msid, field, fmt == 0⟩ m (m.payload.drop S.size) S' →
      Sends F T maxId maxLen S (b ++ mhdr fmt field m ++ extTs T fmt field ++ m.payload.take S.size) S'
  | next {S S' : Sender} (c : Nat) (b : List UInt8) (m : Mess) (rest : List UInt8) (p : Prev) : (S.lanes c).cur = some (m, rest) → (S.lanes c).prev = some p →
      Basic 3 c b → (T.mix = false → big ≤ p.field → S.last = p.field) → Finish F S c p m (rest.drop S.size) S' →
      Sends F T maxId maxLen S (b ++ extTs T 3 p.field ++ rest.take S.size) S'

/-- Chunks, one after the other. -/
inductive Stream (F : List Mess → Option (List Nat)) (T : Terms) (maxId maxLen : Nat) : List UInt8 → Sender → Prop where
  | init : Stream F T maxId maxLen [] {}
  | chunk {bs x : List UInt8} {S S' : Sender} : Stream F T maxId maxLen bs S → Sends F T maxId maxLen S x S' → Stream F T maxId maxLen (bs ++ x) S'

end Verif.RtmpSpec
