import Verif.Basic

/-!
# Model of nginx-common/src/ngx_mem_rstream.h, ngx_mem_rstream.c and ngx_wstream.h

The input is a list of bytes; a pointer into it is an offset. Loading a byte outside the input is
`ub`. The fields `log`, `scope` and `version` of a stream are dropped (they are only copied).
-/

namespace Verif.Rstream

/-- A 32 bit value as stored in memory by the little endian machines the code runs on (not in
/repo: a `ngx_memcpy` of a `uint32_t`). Higher bits are cut off, as by a C conversion. -/
def le32 (n : Nat) : List UInt8 :=
  [UInt8.ofNat (n % 256), UInt8.ofNat (n / 256 % 256), UInt8.ofNat (n / 65536 % 256),
   UInt8.ofNat (n / 16777216 % 256)]

/-- The value stored in four bytes (inverse of `le32`); any other length does not occur: `ub`. -/
def ofLe32 : List UInt8 → Res Nat
  | [a, b, c, d] => .ok (a.toNat + 256 * b.toNat + 65536 * c.toNat + 16777216 * d.toNat)
  | _ => .ub

/-- `ngx_mem_rstream_t` (ngx_mem_rstream.h:20-26). `fin` is `end`. -/
structure Rs where
  pos : Nat
  fin : Nat
deriving Repr, DecidableEq

/-- `ngx_mem_rstream_left` (ngx_mem_rstream.h:12): an unsigned subtraction, which wraps around. -/
def left (rs : Rs) : Nat :=
  if rs.pos ≤ rs.fin then rs.fin - rs.pos else 2 ^ 64 - (rs.pos - rs.fin)

/-- `ngx_mem_rstream_eof` (ngx_mem_rstream.h:13). -/
def eof (rs : Rs) : Bool := rs.fin ≤ rs.pos

/-- `ngx_memcpy(buf, p, size)` from offset `pos` of the input. -/
def load (m : List UInt8) (pos size : Nat) : Res (List UInt8) :=
  if pos + size ≤ m.length then .ok ((m.drop pos).take size) else .ub

/-- `ngx_mem_rstream_read` (ngx_mem_rstream.h:47-58). `none` is NGX_BAD_DATA. -/
def read (m : List UInt8) (rs : Rs) (size : Nat) : Res (Option (List UInt8) × Rs) :=
  if size > left rs then .ok (none, rs)
  else match load m rs.pos size with
    | .ok bs => .ok (some bs, { rs with pos := rs.pos + size })
    | .err => .err
    | .ub => .ub

/-- `ngx_mem_rstream_get_ptr` (ngx_mem_rstream.h:61-74). The result is the offset of the pointer
returned, `none` for NULL. -/
def getPtr (rs : Rs) (size : Nat) : Option Nat × Rs :=
  if size > left rs then (none, rs) else (some rs.pos, { rs with pos := rs.pos + size })

/-- `ngx_mem_rstream_get_stream` (ngx_mem_rstream.h:77-95), `out` different from `rs`. -/
def getStream (rs : Rs) (size : Nat) : Option Rs × Rs :=
  match getPtr rs size with
  | (none, rs') => (none, rs')
  | (some p, rs') => (some { pos := p, fin := rs'.pos }, rs')

/-- `ngx_mem_rstream_get_left` (ngx_mem_rstream.h:98-103): offset and length. -/
def getLeft (rs : Rs) : Nat × Nat := (rs.pos, left rs)

/-- `ngx_mem_rstream_str_get` (ngx_mem_rstream.h:106-123). The result is offset and length of the
string. -/
def strGet (m : List UInt8) (rs : Rs) : Res (Option (Nat × Nat) × Rs) :=
  match read m rs 4 with
  | .ok (none, rs1) => .ok (none, rs1)
  | .ok (some bs, rs1) =>
    match ofLe32 bs with
    | .ok len =>
      match getPtr rs1 len with
      | (none, rs2) => .ok (none, rs2)
      | (some p, rs2) => .ok (some (p, len), rs2)
    | .err => .err
    | .ub => .ub
  | .err => .err
  | .ub => .ub

/-- `ngx_mem_rstream_str_fixed` (ngx_mem_rstream.h:126-142). `cap` is the room at `s->data`;
storing more is `ub`. The result is the bytes stored. -/
def strFixed (m : List UInt8) (rs : Rs) (max cap : Nat) : Res (Option (List UInt8) × Rs) :=
  match read m rs 4 with
  | .ok (none, rs1) => .ok (none, rs1)
  | .ok (some bs, rs1) =>
    match ofLe32 bs with
    | .ok len =>
      if len > max then .ok (none, rs1)
      else match read m rs1 len with
        | .ok (some s, rs2) => if s.length > cap then .ub else .ok (some s, rs2)
        | .ok (none, rs2) => .ok (none, rs2)
        | .err => .err
        | .ub => .ub
    | .err => .err
    | .ub => .ub
  | .err => .err
  | .ub => .ub

/-- `ngx_list_t` (nginx core, used in ngx_mem_rstream.c:6-57): the parts, each with the bytes of
its elements, the element size and the capacity of a part. Simplification: allocation succeeds. -/
structure NList where
  parts  : List (List UInt8)
  esize  : Nat
  nalloc : Nat
deriving Repr, DecidableEq

/-- Loop of `ngx_mem_rstream_read_list` (ngx_mem_rstream.c:16-54). `done` are the full parts,
`last` the bytes in the last part and `nelts` its number of elements. `fuel` bounds the rounds,
running out is `ub` (shown impossible). Result: NGX_OK or NGX_BAD_DATA, the parts, the stream. -/
def readListLoop (m : List UInt8) (esize nalloc : Nat) :
    Nat → List (List UInt8) → List UInt8 → Nat → Rs → Nat → Res (Bool × List (List UInt8) × Rs)
  | 0, _, _, _, _, _ => .ub
  | fuel + 1, done, last, nelts, rs, count =>
    if count = 0 then .ok (true, done ++ [last], rs)
    else
      let (done, last, nelts) := if nelts ≥ nalloc then (done ++ [last], [], 0) else (done, last, nelts)
      let chunk := if nalloc - nelts > count then count else nalloc - nelts
      match read m rs (esize * chunk) with
      | .ok (none, rs1) => .ok (false, done ++ [last], rs1)
      | .ok (some bs, rs1) =>
        readListLoop m esize nalloc fuel done (last ++ bs) (nelts + chunk) rs1 (count - chunk)
      | .err => .err
      | .ub => .ub

/-- `ngx_mem_rstream_read_list` (ngx_mem_rstream.c:6-57) for a list that is empty so far (as at all
call sites: the list was just initialised). -/
def readList (m : List UInt8) (rs : Rs) (esize nalloc count : Nat) :
    Res (Bool × NList × Rs) :=
  match readListLoop m esize nalloc (count + 1) [] [] 0 rs count with
  | .ok (rc, parts, rs') => .ok (rc, { parts, esize, nalloc }, rs')
  | .err => .err
  | .ub => .ub

/-- `ngx_wstream_str` (ngx_wstream.h:18-32): the bytes written. The length is cut to 32 bits. -/
def wstreamStr (s : List UInt8) : List UInt8 := le32 s.length ++ s.take (s.length % 2 ^ 32)

/-! ## Histories of reads -/

/-- One call on stream number `i` of the streams opened so far. -/
inductive Op where
  | read (i size : Nat)
  | ptr (i size : Nat)
  | stream (i size : Nat)
  | str (i : Nat)
  | strFixed (i max : Nat)
  | list (i esize nalloc count : Nat)

/-- What a call delivered: the bytes seen by the caller (`none` = bad data). -/
abbrev Out := Option (List UInt8)

/-- View of the caller through a returned pointer. -/
def view (m : List UInt8) (p len : Nat) : Res Out := (load m p len).map some

/-- One call on one of the streams (`ngx_mem_rstream_*`, see `Op`); a sub-stream is added to the
streams. A buffer given to `str_fixed` has room for `max` bytes. -/
def step (m : List UInt8) (ss : List Rs) : Op → Res (Out × List Rs)
  | .read i n => match ss[i]? with
    | none => .err
    | some rs => match read m rs n with
      | .ok (o, rs') => .ok (o, ss.set i rs')
      | .err => .err
      | .ub => .ub
  | .ptr i n => match ss[i]? with
    | none => .err
    | some rs => match getPtr rs n with
      | (none, rs') => .ok (none, ss.set i rs')
      | (some p, rs') => (view m p n).map fun o => (o, ss.set i rs')
  | .stream i n => match ss[i]? with
    | none => .err
    | some rs => match getStream rs n with
      | (none, rs') => .ok (none, ss.set i rs')
      | (some sub, rs') =>
        (view m (getLeft sub).1 (getLeft sub).2).map fun o => (o, ss.set i rs' ++ [sub])
  | .str i => match ss[i]? with
    | none => .err
    | some rs => match strGet m rs with
      | .ok (none, rs') => .ok (none, ss.set i rs')
      | .ok (some (p, n), rs') => (view m p n).map fun o => (o, ss.set i rs')
      | .err => .err
      | .ub => .ub
  | .strFixed i max => match ss[i]? with
    | none => .err
    | some rs => match strFixed m rs max max with
      | .ok (o, rs') => .ok (o, ss.set i rs')
      | .err => .err
      | .ub => .ub
  | .list i esize nalloc count => match ss[i]? with
    | none => .err
    | some rs => match readList m rs esize nalloc count with
      | .ok (rc, l, rs') => .ok (if rc then some l.parts.flatten else none, ss.set i rs')
      | .err => .err
      | .ub => .ub

/-- Contract of the callers: the stream exists, list parts have room for at least one element. -/
def Op.ok (ss : List Rs) : Op → Prop
  | .read i _ | .ptr i _ | .stream i _ | .str i | .strFixed i _ => i < ss.length
  | .list i _ nalloc _ => i < ss.length ∧ 0 < nalloc

end Verif.Rstream
