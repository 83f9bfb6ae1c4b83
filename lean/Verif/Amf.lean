import Verif.Basic

/-!
# AMF0 reader and writer of the RTMP module

Model of `nginx-rtmp-module/src/ngx_rtmp_amf.c`. A pointer is the number of an object; the memory has the bytes of every object, and a
write outside of an object is undefined behaviour.

Simplified: `NGX_RTMP_AMF_CONTEXT` (no template outside of `src/unused` has it), the Windows branch (lines 195-200), debug output. Type and
flags of an element are separate fields (the flags are the bits 12 and 13, the types are below 0x1000, `ngx_rtmp_amf.h` 14-34). `void *data`
is `mem` for elements of plain types and `sub` for the types that have `ngx_rtmp_amf_elt_t` behind it (object, mixed array, array, variant),
and `len / sizeof(ngx_rtmp_amf_elt_t)` is the length of `sub`; a null pointer is `none` and `[]`.
-/

namespace Verif.Amf

abbrev Bytes := List UInt8

/-- The objects of the program: number of the object to its bytes. -/
abbrev Mem := Nat → Bytes

/-- `ngx_rtmp_amf_elt_t`, ngx_rtmp_amf.h 41-46. -/
inductive Elt where
  | mk (base : Nat) (typeless opt : Bool) (name : Bytes) (mem : Option Nat) (sub : List Elt) (len : Nat)

namespace Elt
def base : Elt → Nat | mk b _ _ _ _ _ _ => b
def typeless : Elt → Bool | mk _ t _ _ _ _ _ => t
def opt : Elt → Bool | mk _ _ o _ _ _ _ => o
def name : Elt → Bytes | mk _ _ _ n _ _ _ => n
def mem : Elt → Option Nat | mk _ _ _ _ m _ _ => m
def sub : Elt → List Elt | mk _ _ _ _ _ s _ => s
def len : Elt → Nat | mk _ _ _ _ _ _ l => l
end Elt

/-! ## Types, ngx_rtmp_amf.h 14-29 -/

def tNumber : Nat := 0
def tBoolean : Nat := 1
def tString : Nat := 2
def tObject : Nat := 3
def tNull : Nat := 5
def tArrayNull : Nat := 6
def tMixed : Nat := 8
def tEnd : Nat := 9
def tArray : Nat := 10
def tInt8 : Nat := 0x100
def tInt16 : Nat := 0x101
def tInt32 : Nat := 0x102
def tVariant : Nat := 0x103

/-! ## Sources of bytes -/

/-- What the reader needs of its source. `get s n` is `ngx_rtmp_amf_get`: the bytes that are copied, and the new position, which is missing
for `NGX_DONE`. `left` bounds the loop over the fields of an object. -/
structure Src (σ : Type) where
  get : σ → Nat → Bytes × Option σ
  left : σ → Nat

/-- `ngx_rtmp_amf_ctx_t` for reading, ngx_rtmp_amf.h 52-58: the buffers from `link` on, and the offset in the first one. -/
structure Ctx where
  link : List Bytes
  off : Nat
deriving DecidableEq, Repr

/-- The loop of `ngx_rtmp_amf_get`, ngx_rtmp_amf.c 82-109. -/
def getLoop : List Bytes → Nat → Nat → Bytes → Bytes × Option Ctx
  | [], _, _, acc => (acc, none)
  | b :: bs, off, n, acc =>
    if off + n ≤ b.length then (acc ++ (b.drop off).take n, some ⟨b :: bs, off + n⟩)
    else getLoop bs 0 (n - (b.length - off)) (acc ++ b.drop off)

/-- `ngx_rtmp_amf_get`, ngx_rtmp_amf.c 66-115. -/
def ctxGet (c : Ctx) (n : Nat) : Bytes × Option Ctx := if n = 0 then ([], some c) else getLoop c.link c.off n []

/-- The bytes from the position on. -/
def Ctx.rest (c : Ctx) : Bytes := match c.link with
  | [] => []
  | b :: bs => b.drop c.off ++ bs.flatten

/-- The chain of buffers as a source. -/
def chain : Src Ctx := ⟨ctxGet, fun c => c.rest.length⟩

/-- One byte string as a source. -/
def flat : Src Bytes := ⟨fun s n => if n ≤ s.length then (s.take n, some (s.drop n)) else (s, none), List.length⟩

/-! ## Memory -/

/-- Write the bytes `bs` at the offset `off` of the object `a`. -/
def wr (m : Mem) (a off : Nat) (bs : Bytes) : Option Mem :=
  if off + bs.length ≤ (m a).length then
    some fun i => if i = a then (m a).take off ++ bs ++ (m a).drop (off + bs.length) else m i
  else none

/-- The same through a pointer that can be null: then nothing is written. -/
def wrp (m : Mem) (p : Option Nat) (off : Nat) (bs : Bytes) : Option Mem := match p with
  | none => some m
  | some a => wr m a off bs

/-! ## Reader -/

/-- The outcome of a call: `NGX_OK` with the values read; `NGX_OK` that ends the list of elements at once (an end marker, or the end of the
message at an optional element); `NGX_ERROR`; undefined behaviour; more nested calls than the stack has room for. -/
inductive Out (σ : Type) where
  | ok (s : σ) (m : Mem)
  | stop (s : σ) (m : Mem)
  | err (m : Mem)
  | ub
  | deep

/-- `ngx_rtmp_amf_reverse_copy` of 2 bytes to a `uint16_t`. -/
def be16 : Bytes → Nat
  | [a, b] => a.toNat * 256 + b.toNat
  | _ => 0

/-- `ngx_rtmp_amf_reverse_copy` of 4 bytes to a `uint32_t`. -/
def be32 : Bytes → Nat
  | [a, b, c, d] => ((a.toNat * 256 + b.toNat) * 256 + c.toNat) * 256 + d.toNat
  | _ => 0

/-- `ngx_strncmp` on strings of the same length: equal, or equal up to a NUL in both. -/
def same : Bytes → Bytes → Bool
  | a :: as, b :: bs => a == b && (a == 0 || same as bs)
  | _, _ => true

/-- `ngx_rtmp_amf_is_compatible_type`, ngx_rtmp_amf.c 309-315. -/
def compat (t1 t2 : Nat) : Bool := t1 == t2 || (t1 == tObject && t2 == tMixed) || (t2 == tObject && t1 == tMixed)

variable {σ : Type}

/-- `ngx_rtmp_amf_get(ctx, p, n)`, and `NGX_ERROR` unless it returns `NGX_OK`. -/
def fetch (S : Src σ) (s : σ) (m : Mem) (p : Option Nat) (n : Nat) (k : σ → Mem → Out σ) : Out σ :=
  match wrp m p 0 (S.get s n).1 with
  | none => .ub
  | some m' => match (S.get s n).2 with
    | none => .err m'
    | some s' => k s' m'

/-- `ngx_rtmp_amf_get(ctx, buf, n)`, `NGX_ERROR` unless it returns `NGX_OK`, `ngx_rtmp_amf_reverse_copy(p, buf, n)`. -/
def fetchRev (S : Src σ) (s : σ) (m : Mem) (p : Option Nat) (n : Nat) : Out σ :=
  match S.get s n with
  | (_, none) => .err m
  | (bs, some s') => match wrp m p 0 bs.reverse with
    | none => .ub
    | some m' => .ok s' m'

/-- The case `NGX_RTMP_AMF_STRING`, ngx_rtmp_amf.c 379-405. With `elts->len` 0 and a destination, `elts->len - 1` is the largest `size_t`. -/
def string (S : Src σ) (p : Option Nat) (size : Nat) (s : σ) (m : Mem) : Out σ :=
  match S.get s 2 with
  | (_, none) => .err m
  | (b, some s) => match p with
    | none => fetch S s m none (be16 b) .ok
    | some a =>
      if size ≤ be16 b then
        if size = 0 then .ub
        else fetch S s m (some a) (size - 1) fun s m =>
          match wr m a (size - 1) [0] with
          | none => .ub
          | some m => fetch S s m none (be16 b - size + 1) .ok
      else
        match wr m a 0 (S.get s (be16 b)).1 with
        | none => .ub
        | some m => match wr m a (be16 b) [0] with
          | none => .ub
          | some m => match (S.get s (be16 b)).2 with
            | none => .err m
            | some s => .ok s m

/-- The longest name, ngx_rtmp_amf.c 186-192. -/
def maxLen (es : List Elt) : Nat := es.foldl (fun k e => max k e.name.length) 0

/-- The name of a field: the part of it that was kept, ngx_rtmp_amf.c 217-231. -/
def readName (S : Src σ) (maxlen len : Nat) (s : σ) : Option (Bytes × σ) :=
  if len ≤ maxlen then
    match S.get s len with
    | (_, none) => none
    | (b, some s) => some (b, s)
  else
    match S.get s maxlen with
    | (_, none) => none
    | (b, some s) => match S.get s (len - maxlen) with
      | (_, none) => none
      | (_, some s) => some (b, s)

/-- The element for a name, ngx_rtmp_amf.c 239-244. -/
def findName (len : Nat) (name : Bytes) (es : List Elt) : Option Elt := es.find? fun e => len == e.name.length && same name e.name

/-- The loop of `ngx_rtmp_amf_read_object`, ngx_rtmp_amf.c 194-255. `rec` is `ngx_rtmp_amf_read` of one element. -/
def objLoop (S : Src σ) (rec : Option Elt → σ → Mem → Out σ) (es : List Elt) : Nat → σ → Mem → Out σ
  | 0, _, _ => .ub
  | f + 1, s, m =>
    match S.get s 2 with
    | (_, none) => .ok s m
    | (b, some s) =>
      if be16 b = 0 then
        match S.get s 1 with
        | (_, none) => .err m
        | (t, some s) => if t = [UInt8.ofNat tEnd] then .ok s m else .err m
      else
        match readName S (maxLen es) (be16 b) s with
        | none => .err m
        | some (name, s) => match rec (findName (be16 b) name es) s m with
          | .ok s m => objLoop S rec es f s m
          | .stop s m => objLoop S rec es f s m
          | o => o

/-- `ngx_rtmp_amf_read_object`, ngx_rtmp_amf.c 176-255. -/
def object (S : Src σ) (rec : Option Elt → σ → Mem → Out σ) (es : List Elt) (s : σ) (m : Mem) : Out σ := objLoop S rec es (S.left s + 1) s m

/-- The loop of `ngx_rtmp_amf_read_array`, ngx_rtmp_amf.c 272-275. -/
def arrLoop (rec : Option Elt → σ → Mem → Out σ) (es : List Elt) : Nat → Nat → σ → Mem → Out σ
  | 0, _, s, m => .ok s m
  | k + 1, n, s, m =>
    match rec es[n]? s m with
    | .ok s m => arrLoop rec es k (n + 1) s m
    | .stop s m => arrLoop rec es k (n + 1) s m
    | o => o

/-- `ngx_rtmp_amf_read_array`, ngx_rtmp_amf.c 258-278. -/
def array (S : Src σ) (rec : Option Elt → σ → Mem → Out σ) (es : List Elt) (s : σ) (m : Mem) : Out σ :=
  match S.get s 4 with
  | (_, none) => .err m
  | (b, some s) => arrLoop rec es (be32 b) 0 s m

/-- The type byte. -/
def byteOf : Bytes → Nat
  | b :: _ => b.toNat
  | [] => 0

/-- The alternative that is used: the last one that has the type, ngx_rtmp_amf.c 296-301. -/
def alternative (type : Nat) (es : List Elt) : Option Elt := (es.filter fun e => e.base == type && !e.typeless && !e.opt).getLast?

/-- `ngx_rtmp_amf_read_variant`, ngx_rtmp_amf.c 281-306. -/
def variant (S : Src σ) (rec : Option Elt → σ → Mem → Out σ) (es : List Elt) (s : σ) (m : Mem) : Out σ :=
  match S.get s 1 with
  | (_, none) => .err m
  | (b, some s) => match alternative (byteOf b) es with
    | none => rec (some (.mk (byteOf b) true false [] none [] 0)) s m
    | some e => rec (some (.mk (byteOf b) true false [] e.mem e.sub e.len)) s m

/-- The switch of `ngx_rtmp_amf_read`, ngx_rtmp_amf.c 365-470, with the pointer `data` and the field `elts->len`. -/
def value (S : Src σ) (rec : Option Elt → σ → Mem → Out σ) (type : Nat) (p : Option Nat) (sub : List Elt) (len : Nat) (s : σ) (m : Mem) : Out σ :=
  if type = tNumber then fetchRev S s m p 8
  else if type = tBoolean then fetch S s m p 1 .ok
  else if type = tString then string S p len s m
  else if type = tNull ∨ type = tArrayNull then .ok s m
  else if type = tMixed then
    match S.get s 4 with
    | (_, none) => .err m
    | (_, some s) => object S rec sub s m
  else if type = tObject then object S rec sub s m
  else if type = tArray then array S rec sub s m
  else if type = tVariant then variant S rec sub s m
  else if type = tInt8 then fetch S s m p 1 .ok
  else if type = tInt16 then fetchRev S s m p 2
  else if type = tInt32 then fetchRev S s m p 4
  else if type = tEnd then .stop s m
  else .err m

/-- One round of the loop of `ngx_rtmp_amf_read`, ngx_rtmp_amf.c 331-475: `none` is a null pointer to the elements. With
`NGX_RTMP_AMF_TYPELESS` the flag `NGX_RTMP_AMF_OPTIONAL` stays in the type, which is then not known. -/
def step (S : Src σ) (rec : Option Elt → σ → Mem → Out σ) (e : Option Elt) (s : σ) (m : Mem) : Out σ :=
  match e with
  | some e =>
    if e.typeless then
      if e.opt then .err m else value S rec e.base e.mem e.sub e.len s m
    else
      match S.get s 1 with
      | (_, none) => if e.opt then .stop s m else .err m
      | (b, some s) =>
        if compat (e.base % 256) (byteOf b) then value S rec (byteOf b) e.mem e.sub e.len s m
        else value S rec (byteOf b) none [] e.len s m
  | none =>
    match S.get s 1 with
    | (_, none) => .err m
    | (b, some s) => value S rec (byteOf b) none [] 0 s m

/-- `ngx_rtmp_amf_read` of one element (or of an unwanted value), when there is room for `d` nested calls. -/
def one (S : Src σ) : Nat → Option Elt → σ → Mem → Out σ
  | 0, _, _, _ => .deep
  | d + 1, e, s, m => step S (one S d) e s m

/-- The loop of `ngx_rtmp_amf_read`, ngx_rtmp_amf.c 331-478. -/
def loop (S : Src σ) (rec : Option Elt → σ → Mem → Out σ) : List Elt → σ → Mem → Out σ
  | [], s, m => .ok s m
  | e :: es, s, m =>
    match step S rec (some e) s m with
    | .ok s m => loop S rec es s m
    | .stop s m => .ok s m
    | o => o

/-- `ngx_rtmp_amf_read`, ngx_rtmp_amf.c 318-478, when there is room for `d` nested calls. -/
def read (S : Src σ) (d : Nat) (es : List Elt) (s : σ) (m : Mem) : Out σ := match d with
  | 0 => .deep
  | d + 1 => loop S (one S d) es s m

/-- `ngx_rtmp_receive_amf`, ngx_rtmp_receive.c 456-467: a message in the buffers `in`. -/
def receive (d : Nat) (es : List Elt) (inp : List Bytes) (m : Mem) : Out Ctx := read chain d es ⟨inp, 0⟩ m

end Verif.Amf
