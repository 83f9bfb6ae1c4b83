import Verif.AmfSpec

/-!
# AMF0 writer of the RTMP module

Model of the second half of `nginx-rtmp-module/src/ngx_rtmp_amf.c`. Buffers come from `ngx_rtmp_alloc_shared_buf` and have room for one chunk
(`cap`); `spare` buffers can still be allocated.
-/

namespace Verif.Amf

/-- `ngx_rtmp_amf_ctx_t` for writing, ngx_rtmp_amf.h 52-58: the buffers before `link`, the buffer of `link`. -/
structure W where
  full : List Bytes := []
  cur : Option Bytes := none
  spare : Nat
deriving DecidableEq, Repr

/-- The chain from `first` on. -/
def W.chain (w : W) : List Bytes := w.full ++ w.cur.toList

/-- `ctx->alloc(ctx->arg)`, and the new buffer becomes the last one, ngx_rtmp_amf.c 140-156. -/
def alloc (w : W) : Res W := if w.spare = 0 then .err else .ok ⟨w.full ++ w.cur.toList, some [], w.spare - 1⟩

/-- Lines 136-157: there is a buffer with room. -/
def ready (cap : Nat) (w : W) : Res W := match w.cur with
  | none => alloc w
  | some b => if b.length = cap then alloc w else .ok w

/-- The loop of `ngx_rtmp_amf_put`, ngx_rtmp_amf.c 136-170. -/
def putLoop (cap : Nat) : Nat → W → Bytes → Res W
  | 0, _, _ => .ub
  | f + 1, w, bs =>
    if bs = [] then .ok w
    else match ready cap w with
      | .err => .err
      | .ub => .ub
      | .ok w => match w.cur with
        | none => .ub
        | some b =>
          if bs.length ≤ cap - b.length then .ok { w with cur := some (b ++ bs) }
          else putLoop cap f { w with cur := some (b ++ bs.take (cap - b.length)) } (bs.drop (cap - b.length))

/-- `ngx_rtmp_amf_put`, ngx_rtmp_amf.c 118-173. Buffers without room at all would make it loop until memory is exhausted. -/
def put (cap : Nat) (w : W) (bs : Bytes) : Res W := putLoop cap (bs.length + 1) w bs

/-- The first `n` bytes behind a pointer. -/
def peek (m : Mem) (p : Option Nat) (n : Nat) : Res Bytes := match p with
  | none => if n = 0 then .ok [] else .ub
  | some a => if n ≤ (m a).length then .ok ((m a).take n) else .ub

/-- `ngx_strlen`. -/
def strlen (m : Mem) (a : Nat) : Res Nat := if 0 ∈ m a then .ok ((m a).takeWhile (· ≠ 0)).length else .ub

/-- `uint16_t` in network order. -/
def out16 (n : Nat) : Bytes := [UInt8.ofNat (n % 65536 / 256), UInt8.ofNat (n % 65536)]

/-- `uint32_t` in network order. -/
def out32 (n : Nat) : Bytes :=
  [UInt8.ofNat (n % 4294967296 / 16777216), UInt8.ofNat (n % 4294967296 / 65536), UInt8.ofNat (n % 4294967296 / 256), UInt8.ofNat (n % 4294967296)]

/-- The length of a string to write, ngx_rtmp_amf.c 591-595. -/
def strLen (m : Mem) (p : Option Nat) (len : Nat) : Res Nat :=
  match p with
  | none => .ok (len % 65536)
  | some a => if len % 65536 = 0 then (strlen m a).map (· % 65536) else .ok (len % 65536)

/-- The case `NGX_RTMP_AMF_STRING` of `ngx_rtmp_amf_write`, ngx_rtmp_amf.c 590-605. -/
def writeString (cap : Nat) (m : Mem) (p : Option Nat) (len : Nat) (w : W) : Res W :=
  match strLen m p len with
  | .err => .err
  | .ub => .ub
  | .ok n => match put cap w (out16 n) with
    | .err => .err
    | .ub => .ub
    | .ok w => match peek m p n with
      | .err => .err
      | .ub => .ub
      | .ok bs => put cap w bs

/-- A value that is `n` bytes behind the pointer, in reverse order (`rev`) or as they are. -/
def writeRaw (cap : Nat) (m : Mem) (p : Option Nat) (n : Nat) (rev : Bool) (w : W) : Res W :=
  match peek m p n with
  | .err => .err
  | .ub => .ub
  | .ok bs => put cap w (if rev then bs.reverse else bs)

mutual
/-- One round of `ngx_rtmp_amf_write`, ngx_rtmp_amf.c 560-661. The flag `NGX_RTMP_AMF_OPTIONAL` stays in the type, which is then not known. -/
def writeOne (cap : Nat) (m : Mem) : Elt → W → Res W
  | .mk base typeless opt _ p sub len, w =>
    match (if typeless then .ok w else put cap w [UInt8.ofNat base]) with
    | .err => .err
    | .ub => .ub
    | .ok w =>
      if opt then .err
      else if base = tNumber then writeRaw cap m p 8 true w
      else if base = tBoolean then writeRaw cap m p 1 false w
      else if base = tString then writeString cap m p len w
      else if base = tNull ∨ base = tArrayNull then .ok w
      else if base = tMixed then
        match put cap w [0, 0, 0, 0] with
        | .err => .err
        | .ub => .ub
        | .ok w => match writeObject cap m sub w with
          | .err => .err
          | .ub => .ub
          | .ok w => put cap w [UInt8.ofNat tEnd]
      else if base = tObject then
        match writeObject cap m sub w with
        | .err => .err
        | .ub => .ub
        | .ok w => put cap w [UInt8.ofNat tEnd]
      else if base = tArray then
        match put cap w (out32 sub.length) with
        | .err => .err
        | .ub => .ub
        | .ok w => writeAll cap m sub w
      else if base = tInt8 then writeRaw cap m p 1 false w
      else if base = tInt16 then writeRaw cap m p 2 true w
      else if base = tInt32 then writeRaw cap m p 4 true w
      else .err

/-- `ngx_rtmp_amf_write_object`, ngx_rtmp_amf.c 485-518. -/
def writeObject (cap : Nat) (m : Mem) : List Elt → W → Res W
  | [], w => put cap w [0, 0]
  | e :: es, w => match put cap w (out16 e.name.length) with
    | .err => .err
    | .ub => .ub
    | .ok w => match put cap w (e.name.take (e.name.length % 65536)) with
      | .err => .err
      | .ub => .ub
      | .ok w => match writeOne cap m e w with
        | .err => .err
        | .ub => .ub
        | .ok w => writeObject cap m es w

/-- The loop of `ngx_rtmp_amf_write` and the one of `ngx_rtmp_amf_write_array`, ngx_rtmp_amf.c 560-661 and 538-542. -/
def writeAll (cap : Nat) (m : Mem) : List Elt → W → Res W
  | [], w => .ok w
  | e :: es, w => match writeOne cap m e w with
    | .err => .err
    | .ub => .ub
    | .ok w => writeAll cap m es w
end

/-- `ngx_rtmp_create_amf` up to the header, ngx_rtmp_send.c 418-441: the chain of buffers of a message. -/
def create (cap spare : Nat) (m : Mem) (es : List Elt) : Res (List Bytes) := (writeAll cap m es ⟨[], none, spare⟩).map W.chain

end Verif.Amf

namespace Verif.AmfSpec

open Verif.Amf (Bytes Mem Elt)

/-- The bytes behind a pointer. -/
def behind (m : Mem) (p : Option Nat) : Bytes := match p with
  | none => []
  | some a => m a

/-- The string of an element: of a given length, or up to the NUL when no length is given. -/
def text (m : Mem) (p : Option Nat) (len : Nat) : Bytes := if len = 0 then (behind m p).takeWhile (· ≠ 0) else (behind m p).take len

mutual
/-- The value of an element. -/
def valueOf (m : Mem) : Elt → Value
  | .mk base _ _ _ p sub len =>
    if base = 0 then .num ((behind m p).take 8).reverse
    else if base = 1 then .bool (((behind m p).head?).getD 0)
    else if base = 2 then .str (text m p len)
    else if base = 3 then .obj (fieldsOf m sub)
    else if base = 5 then .null
    else if base = 6 then .undef
    else if base = 8 then .ecma 0 (fieldsOf m sub)
    else .strict (valuesOf m sub)
def fieldsOf (m : Mem) : List Elt → Fields
  | [] => .nil
  | e :: es => .cons e.name (valueOf m e) (fieldsOf m es)
def valuesOf (m : Mem) : List Elt → Values
  | [] => .nil
  | e :: es => .cons (valueOf m e) (valuesOf m es)
end

/-- What the caller of the writer has to take care of: there is what the elements point to, strings without a length are ended by NUL, and
strings, names and arrays are not too long. -/
inductive Given (m : Mem) : Elt → Prop where
  | mk (base : Nat) (name : Bytes) (p : Option Nat) (sub : List Elt) (len : Nat) : base ∈ [0, 1, 2, 3, 5, 6, 8, 10] → name.length < 65536 →
      (base = 0 → 8 ≤ (behind m p).length) → (base = 1 → 1 ≤ (behind m p).length) →
      (base = 2 → len ≤ (behind m p).length ∧ len < 65536 ∧ (text m p len).length < 65536 ∧ (len = 0 → p = none ∨ 0 ∈ behind m p)) →
      sub.length < 2 ^ 32 → (∀ e ∈ sub, Given m e) → Given m (.mk base false false name p sub len)

end Verif.AmfSpec
