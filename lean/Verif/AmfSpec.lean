import Verif.Amf

/-!
# AMF0: values, how they are written, and what a receiver wants of them

After the specification of AMF0 (sections 2.2 to 2.12). Of the model only the types of the templates and of the memory are used.
-/

namespace Verif.AmfSpec

open Verif.Amf (Bytes Mem Elt)

mutual
/-- The values that the module knows. A number is the eight bytes of the IEEE double in network order. -/
inductive Value where
  | num (b : Bytes)
  | bool (b : UInt8)
  | str (s : Bytes)
  | null
  | undef
  | obj (f : Fields)
  | ecma (n : Nat) (f : Fields)
  | strict (vs : Values)
inductive Fields where
  | nil
  | cons (k : Bytes) (v : Value) (f : Fields)
inductive Values where
  | nil
  | cons (v : Value) (vs : Values)
end

def Values.ofList : List Value → Values
  | [] => .nil
  | v :: vs => .cons v (ofList vs)

def Fields.ofList : List (Bytes × Value) → Fields
  | [] => .nil
  | (k, v) :: f => .cons k v (ofList f)

def Values.length : Values → Nat
  | .nil => 0
  | .cons _ vs => vs.length + 1

def u16 (n : Nat) : Bytes := [UInt8.ofNat (n / 256), UInt8.ofNat n]

def u32 (n : Nat) : Bytes := [UInt8.ofNat (n / 16777216), UInt8.ofNat (n / 65536), UInt8.ofNat (n / 256), UInt8.ofNat n]

/-- The marker (2.1). -/
def marker : Value → Nat
  | .num _ => 0
  | .bool _ => 1
  | .str _ => 2
  | .obj _ => 3
  | .null => 5
  | .undef => 6
  | .ecma _ _ => 8
  | .strict _ => 10

mutual
/-- A value without its marker. -/
def body : Value → Bytes
  | .num b => b
  | .bool b => [b]
  | .str s => u16 s.length ++ s
  | .null => []
  | .undef => []
  | .obj f => fields f ++ [0, 0, 9]
  | .ecma n f => u32 n ++ (fields f ++ [0, 0, 9])
  | .strict vs => u32 vs.length ++ items vs
def fields : Fields → Bytes
  | .nil => []
  | .cons k v f => u16 k.length ++ (k ++ (UInt8.ofNat (marker v) :: (body v ++ fields f)))
def items : Values → Bytes
  | .nil => []
  | .cons v vs => UInt8.ofNat (marker v) :: (body v ++ items vs)
end

/-- A value on the wire. -/
def enc (v : Value) : Bytes := UInt8.ofNat (marker v) :: body v

mutual
/-- The value can be written: numbers have eight bytes, strings and names fit in 16 bits, and names are not empty. -/
def Value.Ok : Value → Prop
  | .num b => b.length = 8
  | .str s => s.length < 65536
  | .obj f => f.Ok
  | .ecma _ f => f.Ok
  | .strict vs => vs.length < 2 ^ 32 ∧ vs.Ok
  | _ => True
def Fields.Ok : Fields → Prop
  | .nil => True
  | .cons k v f => 0 < k.length ∧ k.length < 65536 ∧ v.Ok ∧ f.Ok
def Values.Ok : Values → Prop
  | .nil => True
  | .cons v vs => v.Ok ∧ vs.Ok
end

mutual
/-- Nesting. -/
def Value.depth : Value → Nat
  | .obj f => f.depth + 1
  | .ecma _ f => f.depth + 1
  | .strict vs => vs.depth + 1
  | _ => 0
def Fields.depth : Fields → Nat
  | .nil => 0
  | .cons _ v f => max v.depth f.depth
def Values.depth : Values → Nat
  | .nil => 0
  | .cons v vs => max v.depth vs.depth
end

/-- The object `a` starts with the bytes `bs`. -/
def place (m : Mem) (a : Nat) (bs : Bytes) : Mem := fun i => if i = a then bs ++ (m a).drop bs.length else m i

def placep (m : Mem) (p : Option Nat) (bs : Bytes) : Mem := match p with
  | none => m
  | some a => place m a bs

/-- An element of this type takes the value: the type is the same, where objects and mixed arrays count as the same. -/
def agrees (base mark : Nat) : Bool := base == mark || ((base == 3 || base == 8) && (mark == 3 || mark == 8))

/-- Who takes the value: the element itself, or the last alternative of the exact type. -/
def wanted (e : Option Elt) (v : Value) : Option Elt := match e with
  | none => none
  | some e =>
    if e.base = 0x103 then (e.sub.filter fun x => x.base == marker v).getLast?
    else if agrees e.base (marker v) then some e else none

mutual
/-- The memory after a wanted value has been taken: a number in the order of the host (little endian), a string cut to the size of its
destination and ended by NUL, of an object the fields that have an element, in their order on the wire. -/
def take (p : Option Nat) (sub : List Elt) (len : Nat) : Value → Mem → Mem
  | .num b, m => placep m p b.reverse
  | .bool b, m => placep m p [b]
  | .str s, m => placep m p (s.take (len - 1) ++ [0])
  | .null, m => m
  | .undef, m => m
  | .obj f, m => takeFields sub f m
  | .ecma _ f, m => takeFields sub f m
  | .strict vs, m => takeItems sub vs m
def takeFields (es : List Elt) : Fields → Mem → Mem
  | .nil, m => m
  | .cons k v f, m => takeFields es f (match wanted (es.find? fun e => e.name == k) v with
      | none => m
      | some e => take e.mem e.sub e.len v m)
def takeItems (es : List Elt) : Values → Mem → Mem
  | .nil, m => m
  | .cons v vs, m => takeItems es.tail vs (match wanted es.head? v with
      | none => m
      | some e => take e.mem e.sub e.len v m)
end

/-- The templates of the claim: types of the wire, or a variant with a list of alternatives; no NUL in names. -/
inductive Plain : Elt → Prop where
  | field (base : Nat) (opt : Bool) (name : Bytes) (mem : Option Nat) (sub : List Elt) (len : Nat) : base < 256 → 0 ∉ name →
      (∀ e ∈ sub, Plain e) → Plain (.mk base false opt name mem sub len)
  | variant (name : Bytes) (sub : List Elt) (len : Nat) : 0 ∉ name → (∀ e ∈ sub, e.typeless = false ∧ e.opt = false) → (∀ e ∈ sub, Plain e) →
      Plain (.mk 0x103 true false name none sub len)

end Verif.AmfSpec
