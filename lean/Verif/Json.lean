import Verif.Basic

/-!
# Model of nginx-common/src/ngx_json_parser.c (parser and string decoding)

The parser walks over a zero-terminated text and lowers the case of object keys in place. It never
looks back, so the text is modelled by the bytes behind the cursor (`done`, as they are after the
writes) and the bytes from the cursor on (`rest`); `cur_pos` is the offset `done.length`. Looking at a
byte when `rest` is empty is a read outside the text: `ub`. Returning `NGX_JSON_BAD_DATA` is `err`.

Simplifications: allocation does not fail; the array parts (a list of memory pieces) and the
`ngx_array_t` of an object are lists; an element of an integer array is the fraction with
denominator 1; error texts are not modelled.
-/

namespace Verif.Json

/-- Value types that an array can have (ngx_json_parser.h:30-38). -/
inductive Ty where
  | str | arr | obj | bool | frac | int
deriving Repr, DecidableEq

/-- Key of an object member: offset and length in the text, and hash (ngx_json_parser.h:94-98). -/
structure Key where
  off : Nat
  len : Nat
  hash : Nat
deriving Repr, DecidableEq

/-- `ngx_json_value_t` (ngx_json_parser.h:76-91). Strings are offset, length and the escape flag. -/
inductive V where
  | null
  | bool (b : Bool)
  | num (n : Int) (denom : Nat)
  | str (off len : Nat) (escape : Bool)
  | arr (ty : Option Ty) (es : List V)
  | obj (ms : List (Key × V))

/-- Cursor into the text. -/
structure St where
  done : List UInt8
  rest : List UInt8
deriving Repr, DecidableEq

/-- `isdigit` and `isspace` of the C locale. -/
def isDigit (c : UInt8) : Bool := 48 ≤ c.toNat && c.toNat ≤ 57
def isSpace (c : UInt8) : Bool := c.toNat = 32 || (9 ≤ c.toNat && c.toNat ≤ 13)

/-- `*cur_pos`. -/
def peek : List UInt8 → Res UInt8
  | [] => .ub
  | c :: _ => .ok c

/-- `cur_pos++` over the byte at the cursor. -/
def adv (st : St) : St := { done := st.done ++ st.rest.take 1, rest := st.rest.drop 1 }

/-- `ngx_json_skip_spaces` (ngx_json_parser.c:151-155). -/
def skipSpaces (done : List UInt8) : List UInt8 → Res St
  | [] => .ub
  | c :: cs => if c ≠ 0 ∧ isSpace c then skipSpaces (done ++ [c]) cs else .ok { done := done, rest := c :: cs }

/-- The loop over digits in `ngx_json_get_value_type` (ngx_json_parser.c:136-138). -/
def afterDigits : List UInt8 → Res UInt8
  | [] => .ub
  | c :: cs => if isDigit c then afterDigits cs else .ok c

/-- `ngx_json_get_value_type` (ngx_json_parser.c:97-148). -/
def valueType (rest : List UInt8) : Res Ty :=
  (peek rest).bind fun c =>
  if c = 34 then .ok .str
  else if c = 91 then .ok .arr
  else if c = 123 then .ok .obj
  else if c = 102 ∨ c = 116 then .ok .bool
  else
    let r := if c = 45 then rest.drop 1 else rest
    (peek r).bind fun d =>
    if ¬ isDigit d then .err
    else (afterDigits r).bind fun e => if e = 46 then .ok .frac else .ok .int

/-- The loop of `ngx_json_parse_string` (ngx_json_parser.c:169-196). Returns the length of the string
(bytes read before the closing quote), the escape flag and the cursor behind the quote. -/
def strLoop (done : List UInt8) (len : Nat) (escape : Bool) : List UInt8 → Res (Nat × Bool × St)
  | [] => .ub
  | c :: cs =>
    if c = 0 then .err
    else if c = 92 then match cs with
      | [] => .ub
      | d :: ds => if d = 0 then .err else strLoop (done ++ [c, d]) (len + 2) true ds
    else if c = 34 then .ok (len, escape, { done := done ++ [c], rest := cs })
    else strLoop (done ++ [c]) (len + 1) escape cs

/-- `ngx_json_parse_string` (ngx_json_parser.c:158-201); the cursor is at the opening quote. -/
def string (st : St) : Res (V × St) :=
  (strLoop (adv st).done 0 false (adv st).rest).bind fun (len, escape, st1) =>
    .ok (.str (adv st).done.length len escape, st1)

/-- Lower case as in ngx_json_parser.c:222-225. -/
def lower (c : UInt8) : UInt8 := if 65 ≤ c.toNat ∧ c.toNat ≤ 90 then c ||| 0x20 else c

/-- `ngx_hash` of nginx: `key * 31 + c`, in 64 bits. -/
def hashStep (h : Nat) (c : UInt8) : Nat := (h * 31 + c.toNat) % 2 ^ 64

/-- The loop of `ngx_json_parse_object_key` (ngx_json_parser.c:215-248). -/
def keyLoop (done : List UInt8) (len hash : Nat) : List UInt8 → Res (Nat × Nat × St)
  | [] => .ub
  | c0 :: cs =>
    let c := lower c0
    if c0 = 0 then .err
    else if c = 92 then match cs with
      | [] => .ub
      | d :: ds => if d = 0 then .err else keyLoop (done ++ [c, d]) (len + 2) (hashStep hash c) ds
    else if c = 34 then .ok (len, hash, { done := done ++ [c], rest := cs })
    else keyLoop (done ++ [c]) (len + 1) (hashStep hash c) cs

/-- `EXPECT_CHAR` (ngx_json_parser.c:21-23). -/
def expect (ch : UInt8) (st : St) : Res St :=
  (peek st.rest).bind fun c => if c ≠ ch then .err else .ok (adv st)

/-- `ngx_json_parse_object_key` (ngx_json_parser.c:204-253). -/
def key (st : St) : Res (Key × St) :=
  (expect 34 st).bind fun st1 =>
  (keyLoop st1.done 0 0 st1.rest).bind fun (len, hash, st2) =>
    .ok ({ off := st1.done.length, len := len, hash := hash }, st2)

/-- `EXPECT_STRING` (ngx_json_parser.c:25-31): `ngx_strncmp` reads up to the first difference. -/
def expectStr (s : List UInt8) (st : St) : Res St :=
  match s with
  | [] => .ok st
  | ch :: s => (expect ch st).bind (expectStr s)

/-- LLONG_MAX / 10 - 1, LLONG_MAX and ULLONG_MAX / 10. -/
def lim : Nat := 9223372036854775807 / 10 - 1
def llongMax : Nat := 9223372036854775807
def ulimit : Nat := 18446744073709551615 / 10

/-- The loop of `ngx_json_parse_int` (ngx_json_parser.c:278-287). A value outside of int64 is `ub`. -/
def intLoop (done : List UInt8) (value : Nat) : List UInt8 → Res (Nat × St)
  | [] => .ub
  | c :: cs =>
    if isDigit c then
      if value > lim then .err
      else if value * 10 + (c.toNat - 48) > llongMax then .ub
      else intLoop (done ++ [c]) (value * 10 + (c.toNat - 48)) cs
    else .ok (value, { done := done, rest := c :: cs })

/-- `ngx_json_parse_int` (ngx_json_parser.c:256-292). Result: the sign and, unless the number was
refused (`none` for NGX_JSON_BAD_DATA), the magnitude. -/
def parseInt (st : St) : Res (Bool × Option (Nat × St)) :=
  (peek st.rest).bind fun c =>
  let neg := c = 45
  let st1 := if neg then adv st else st
  (peek st1.rest).bind fun d =>
  if ¬ isDigit d then .ok (neg, none)
  else match intLoop st1.done 0 st1.rest with
    | .ok r => .ok (neg, some r)
    | .err => .ok (neg, none)
    | .ub => .ub

/-- The loop of `ngx_json_parse_fraction` (ngx_json_parser.c:318-328). -/
def fracLoop (done : List UInt8) (value denom : Nat) : List UInt8 → Res (Nat × Nat × St)
  | [] => .ub
  | c :: cs =>
    if isDigit c then
      if value > lim ∨ denom > ulimit then .err
      else if value * 10 + (c.toNat - 48) > llongMax then .ub
      else fracLoop (done ++ [c]) (value * 10 + (c.toNat - 48)) (denom * 10 % 2 ^ 64) cs
    else .ok (value, denom, { done := done, rest := c :: cs })

/-- Apply the sign. -/
def signed (neg : Bool) (n : Nat) : Int := if neg then - (n : Int) else n

/-- `ngx_json_parse_fraction` (ngx_json_parser.c:295-339). -/
def fraction (st : St) : Res (V × St) :=
  (parseInt st).bind fun (neg, r) => match r with
  | none => .err
  | some (value, st1) =>
    (peek st1.rest).bind fun c =>
    if c = 46 then
      (peek (adv st1).rest).bind fun d =>
      if ¬ isDigit d then .err
      else (fracLoop (adv st1).done value 1 (adv st1).rest).bind fun (value', denom, st2) =>
        .ok (.num (signed neg value') denom, st2)
    else .ok (.num (signed neg value) 1, st1)

/-- `ngx_json_parser_int` (ngx_json_parser.c:597-610). The sign is applied even when the number was
refused; the element then still holds what was in the memory before, `junk`, and negating the
smallest int64 is `ub`. -/
def elemInt (junk : Int) (st : St) : Res (V × St) :=
  (parseInt st).bind fun (neg, r) => match r with
  | none => if neg ∧ junk = - 2 ^ 63 then .ub else .err
  | some (value, st1) => .ok (.num (signed neg value) 1, st1)

/-- `ngx_json_parser_bool` (ngx_json_parser.c:569-587). -/
def elemBool (st : St) : Res (V × St) :=
  (peek st.rest).bind fun c =>
  if c = 116 then (expectStr [116, 114, 117, 101] st).bind fun st1 => .ok (.bool true, st1)
  else if c = 102 then (expectStr [102, 97, 108, 115, 101] st).bind fun st1 => .ok (.bool false, st1)
  else .err

/-- `NGX_JSON_MAX_ELEMENTS` and `NGX_JSON_MAX_RECURSION_DEPTH` (ngx_json_parser.c:7-8). -/
def maxElements : Nat := 524288
def maxDepth : Nat := 32

/-- The loops of `ngx_json_parse_array` (ngx_json_parser.c:395-450) and `ngx_json_parse_object`
(ngx_json_parser.c:497-541), from the start of an item on: `item` reads one element or one member,
`close` is the closing bracket. `count` items are there already. The first argument bounds the
rounds; running out is `ub` (shown impossible). -/
def loop {α : Type} (close : UInt8) (item : St → Res (α × St)) : Nat → Nat → St → Res (List α × St)
  | 0, _, _ => .ub
  | k + 1, count, st =>
    if count ≥ maxElements then .err
    else (item st).bind fun (v, st1) =>
      (skipSpaces st1.done st1.rest).bind fun st2 =>
      (peek st2.rest).bind fun c =>
      if c = close then .ok ([v], adv st2)
      else if c = 44 then
        (skipSpaces (adv st2).done (adv st2).rest).bind fun st3 =>
        (loop close item k (count + 1) st3).bind fun (vs, st4) => .ok (v :: vs, st4)
      else .err

/-- Parser of one value: of any type (`ngx_json_parse_value`) or of the type of an array. Arguments:
wanted type, nesting depth, cursor. -/
abbrev Parser := Option Ty → Nat → St → Res (V × St)

/-- `ngx_json_parse_array` (ngx_json_parser.c:342-460). -/
def array (p : Parser) (depth : Nat) (st : St) : Res (V × St) :=
  (skipSpaces (adv st).done (adv st).rest).bind fun st1 =>
  (peek st1.rest).bind fun c =>
  if c = 93 then .ok (.arr none [], adv st1)
  else if depth ≥ maxDepth then .err
  else (valueType st1.rest).bind fun ty =>
    (loop 93 (p (some ty) (depth + 1)) (st1.rest.length + 1) 0 st1).bind fun (vs, st2) =>
      .ok (.arr (some ty) vs, st2)

/-- One member of an object (ngx_json_parser.c:509-521). -/
def member (p : Parser) (depth : Nat) (st : St) : Res ((Key × V) × St) :=
  (key st).bind fun (k, st1) =>
  (skipSpaces st1.done st1.rest).bind fun st2 =>
  (expect 58 st2).bind fun st3 =>
  (skipSpaces st3.done st3.rest).bind fun st4 =>
  (p none depth st4).bind fun (v, st5) => .ok ((k, v), st5)

/-- `ngx_json_parse_object` (ngx_json_parser.c:463-542). -/
def object (p : Parser) (depth : Nat) (st : St) : Res (V × St) :=
  (skipSpaces (adv st).done (adv st).rest).bind fun st1 =>
  (peek st1.rest).bind fun c =>
  if c = 125 then .ok (.obj [], adv st1)
  else if depth ≥ maxDepth then .err
  else (loop 125 (member p (depth + 1)) (st1.rest.length + 1) 0 st1).bind fun (ms, st2) =>
      .ok (.obj ms, st2)

/-- `ngx_json_parse_value` (ngx_json_parser.c:613-658) and the element parsers
(ngx_json_parser.c:545-610). The first argument bounds the nesting of calls; running out is `ub`
(shown impossible). -/
def value (junk : Int) : Nat → Parser
  | 0, _, _, _ => .ub
  | n + 1, w, depth, st =>
    (peek st.rest).bind fun c => match w with
    | none =>
      if c = 34 then string st
      else if c = 91 then array (value junk n) depth st
      else if c = 123 then object (value junk n) depth st
      else if c = 110 then (expectStr [110, 117, 108, 108] st).bind fun st1 => .ok (.null, st1)
      else if c = 116 then
        (expectStr [116, 114, 117, 101] st).bind fun st1 => .ok (.bool true, st1)
      else if c = 102 then
        (expectStr [102, 97, 108, 115, 101] st).bind fun st1 => .ok (.bool false, st1)
      else fraction st
    | some .str => if c ≠ 34 then .err else string st
    | some .arr => if c ≠ 91 then .err else array (value junk n) depth st
    | some .obj => if c ≠ 123 then .err else object (value junk n) depth st
    | some .bool => elemBool st
    | some .frac => fraction st
    | some .int => elemInt junk st

/-- `ngx_json_parse` (ngx_json_parser.c:661-694). The result is the value and the text after the
writes of the parser. -/
def parse (junk : Int) (text : List UInt8) : Res (V × List UInt8) :=
  (skipSpaces [] text).bind fun st =>
  (value junk (maxDepth + 2) none 0 st).bind fun (v, st1) =>
  (skipSpaces st1.done st1.rest).bind fun st2 =>
  (peek st2.rest).bind fun c =>
  if c ≠ 0 then .err else .ok (v, st2.done ++ st2.rest)

/-! ## Decoding of strings -/

/-- One hexadecimal digit, as in `ngx_hextoi` of nginx. -/
def hexDigit (c : UInt8) : Option Nat :=
  if 48 ≤ c.toNat ∧ c.toNat ≤ 57 then some (c.toNat - 48)
  else if 97 ≤ (c ||| 0x20).toNat ∧ (c ||| 0x20).toNat ≤ 102 then some ((c ||| 0x20).toNat - 97 + 10)
  else none

/-- `ngx_hextoi` of nginx for short inputs (no overflow). -/
def hextoi : Nat → List UInt8 → Option Nat
  | v, [] => some v
  | v, c :: cs => (hexDigit c).bind fun d => hextoi (v * 16 + d) cs

/-- The bytes written by `ngx_json_unicode_hex_to_utf8` (ngx_json_parser.c:697-730). -/
def unicodeHex (src : List UInt8) : Option (List UInt8) :=
  (hextoi 0 src).bind fun ch =>
  if ch < 0x80 then some [UInt8.ofNat ch]
  else if ch < 0x800 then some [UInt8.ofNat ((ch >>> 6) ||| 0xc0), UInt8.ofNat ((ch &&& 0x3f) ||| 0x80)]
  else if ch < 0x10000 then
    some [UInt8.ofNat ((ch >>> 12) ||| 0xe0), UInt8.ofNat (((ch >>> 6) &&& 0x3f) ||| 0x80),
      UInt8.ofNat ((ch &&& 0x3f) ||| 0x80)]
  else if ch < 0x110000 then
    some [UInt8.ofNat ((ch >>> 18) ||| 0xf0), UInt8.ofNat (((ch >>> 12) &&& 0x3f) ||| 0x80),
      UInt8.ofNat (((ch >>> 6) &&& 0x3f) ||| 0x80), UInt8.ofNat ((ch &&& 0x3f) ||| 0x80)]
  else none

/-- Loads and stores of single bytes in a memory `m`. -/
def load (m : List UInt8) (i : Nat) : Res UInt8 :=
  match m[i]? with
  | some c => .ok c
  | none => .ub
def store (m : List UInt8) (i : Nat) (c : UInt8) : Res (List UInt8) :=
  if i < m.length then .ok (m.set i c) else .ub

/-- Several stores in a row (`*dest++ = ...`). -/
def storeAll (m : List UInt8) (i : Nat) : List UInt8 → Res (List UInt8)
  | [] => .ok m
  | c :: cs => (store m i c).bind fun m1 => storeAll m1 (i + 1) cs

/-- The character of a one letter escape (ngx_json_parser.c:754-786). -/
def escChar (c : UInt8) : Option UInt8 :=
  if c = 34 then some 34
  else if c = 92 then some 92
  else if c = 47 then some 47
  else if c = 98 then some 8
  else if c = 102 then some 12
  else if c = 110 then some 10
  else if c = 114 then some 13
  else if c = 116 then some 9
  else none

/-- The loop of `ngx_json_decode_string` (ngx_json_parser.c:742-804). `cur` and `e` are offsets of the
source, `p` of the destination, all in the memory `m` (for decoding in place they overlap). The first
argument bounds the rounds; running out is `ub` (shown impossible). -/
def decodeLoop : Nat → List UInt8 → Nat → Nat → Nat → Res (List UInt8 × Nat)
  | 0, _, _, _, _ => .ub
  | k + 1, m, cur, e, p =>
    if cur ≥ e then .ok (m, p)
    else (load m cur).bind fun c =>
      if c ≠ 92 then (store m p c).bind fun m1 => decodeLoop k m1 (cur + 1) e (p + 1)
      else if cur + 1 ≥ e then .err
      else (load m (cur + 1)).bind fun d =>
        match escChar d with
        | some x => (store m p x).bind fun m1 => decodeLoop k m1 (cur + 2) e (p + 1)
        | none =>
          if d ≠ 117 then .err
          else if cur + 1 + 5 > e then .err
          else (load m (cur + 2)).bind fun h1 => (load m (cur + 3)).bind fun h2 =>
            (load m (cur + 4)).bind fun h3 => (load m (cur + 5)).bind fun h4 =>
            match unicodeHex [h1, h2, h3, h4] with
            | none => .err
            | some bs => (storeAll m p bs).bind fun m1 => decodeLoop k m1 (cur + 6) e (p + bs.length)

/-- `ngx_json_decode_string` (ngx_json_parser.c:733-809): source at `src` with `len` bytes, destination
at `dst` with `dlen` bytes in it already. Result: the memory and the new length of the destination. -/
def decodeString (m : List UInt8) (dst dlen src len : Nat) : Res (List UInt8 × Nat) :=
  (decodeLoop (len + 1) m src (src + len) (dst + dlen)).bind fun (m1, p) => .ok (m1, p - dst)

/-- `ngx_json_get_string` (ngx_json_parser.c:812-826): strings without escapes are not copied. Result:
the memory, and the length of the string at `off`. -/
def getString (m : List UInt8) (off len : Nat) (escape : Bool) : Res (List UInt8 × Nat) :=
  if escape then decodeString m off 0 off len else .ok (m, len)

end Verif.Json
