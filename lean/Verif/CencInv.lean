import Verif.Cenc

/-!
# Common encryption: what the writer of video has done after any prefix of the data
-/

namespace Verif.Cenc

/-! ## Specification -/

/-- A unit with its size before it. -/
def unit (n : Nat) (u : List UInt8) : List UInt8 := beN n u.length ++ u

/-- A frame made of units. -/
def plain (n : Nat) (us : List (List UInt8)) : List UInt8 := us.flatMap (unit n)

/-- The units that a frame can have. -/
def Units (n : Nat) (us : List (List UInt8)) : Prop := ∀ u ∈ us, 0 < u.length ∧ u.length < 256 ^ n

def sliced (P : Par) : List UInt8 → Bool
  | [] => false
  | b :: _ => isSlice P b

/-- The number of bytes of a unit that are encrypted: all but the first one. -/
def encSize (P : Par) (u : List UInt8) : Nat := if sliced P u then u.length - 1 else 0

def encSizes (P : Par) (us : List (List UInt8)) : Nat := (us.map (encSize P)).sum

/-- The type byte and the rest of a unit, encrypted from position `p` of the key stream. -/
def encData (P : Par) (ks : Nat → UInt8) (p : Nat) : List UInt8 → List UInt8
  | [] => []
  | b :: u => b :: (if isSlice P b then xorAt ks p u else u)

def encUnits (P : Par) (ks : Nat → UInt8) : Nat → List (List UInt8) → List UInt8
  | _, [] => []
  | p, u :: us => beN P.n u.length ++ encData P ks p u ++ encUnits P ks (p + encSize P u) us

/-- The subsample of a unit of size `k`, with the clear size cut to 16 bits. -/
def subBytes (P : Par) (slice : Bool) (k : Nat) : List UInt8 :=
  if slice then beN 2 (P.n + 1) ++ beN 4 (k - 1) else beN 2 (P.n + k) ++ beN 4 0

def unitSub (P : Par) (u : List UInt8) : List UInt8 := subBytes P (sliced P u) u.length

/-- The auxiliary data of a frame. -/
def entry (P : Par) (iv : List UInt8) (us : List (List UInt8)) : List UInt8 := iv ++ beN 2 us.length ++ us.flatMap (unitSub P)

/-- The frames of a fragment, the IV of the first one is `v`. -/
def outs (P : Par) : Nat → List (List (List UInt8)) → List UInt8
  | _, [] => []
  | v, us :: fs => encUnits P (stream P.E (be64 v)) 0 us ++ outs P (v + 1) fs

def entries (P : Par) : Nat → List (List (List UInt8)) → List UInt8
  | _, [] => []
  | v, us :: fs => entry P (be64 v) us ++ entries P (v + 1) fs

def plains (n : Nat) (fs : List (List (List UInt8))) : List UInt8 := fs.flatMap (plain n)

/-! ## Lemmas about the specification -/

theorem beN_length : ∀ k x, (beN k x).length = k
  | 0, _ => rfl
  | k + 1, x => by simp [beN, beN_length k]

theorem unit_length (n : Nat) (u : List UInt8) : (unit n u).length = n + u.length := by simp [unit, beN_length]

theorem plain_snoc (n : Nat) (us : List (List UInt8)) (u : List UInt8) : plain n (us ++ [u]) = plain n us ++ unit n u := by simp [plain]

theorem encSizes_snoc (P : Par) (us : List (List UInt8)) (u : List UInt8) : encSizes P (us ++ [u]) = encSizes P us + encSize P u := by
  simp [encSizes]

theorem encUnits_snoc (P : Par) (ks : Nat → UInt8) (u : List UInt8) : ∀ (us : List (List UInt8)) (p : Nat),
    encUnits P ks p (us ++ [u]) = encUnits P ks p us ++ (beN P.n u.length ++ encData P ks (p + encSizes P us) u)
  | [], p => by simp [encUnits, encSizes]
  | w :: us, p => by
    rw [List.cons_append, encUnits, encUnits, encUnits_snoc P ks u us]
    simp only [encSizes, List.map_cons, List.sum_cons, List.append_assoc, Nat.add_assoc]

theorem outs_snoc (P : Par) (us : List (List UInt8)) : ∀ (fs : List (List (List UInt8))) (v : Nat),
    outs P v (fs ++ [us]) = outs P v fs ++ encUnits P (stream P.E (be64 (v + fs.length))) 0 us
  | [], v => by simp [outs]
  | w :: fs, v => by
    rw [List.cons_append, outs, outs, outs_snoc P us fs, List.append_assoc, List.length_cons, show v + 1 + fs.length = v + (fs.length + 1) by omega]

theorem entries_snoc (P : Par) (us : List (List UInt8)) : ∀ (fs : List (List (List UInt8))) (v : Nat),
    entries P v (fs ++ [us]) = entries P v fs ++ entry P (be64 (v + fs.length)) us
  | [], v => by simp [entries]
  | w :: fs, v => by
    rw [List.cons_append, entries, entries, entries_snoc P us fs, List.append_assoc, List.length_cons, show v + 1 + fs.length = v + (fs.length + 1) by omega]

theorem plains_snoc (n : Nat) (fs : List (List (List UInt8))) (us : List (List UInt8)) : plains n (fs ++ [us]) = plains n fs ++ plain n us := by
  simp [plains]

theorem subBytes_length (P : Par) (b : Bool) (k : Nat) : (subBytes P b k).length = 6 := by
  unfold subBytes; split <;> simp [beN_length]

theorem subs_length (P : Par) : ∀ us : List (List UInt8), (us.flatMap (unitSub P)).length = 6 * us.length
  | [] => rfl
  | u :: us => by
    rw [List.flatMap_cons, List.length_append, subs_length P us, unitSub, subBytes_length, List.length_cons]; omega

theorem entry_length (P : Par) (v : Nat) (us : List (List UInt8)) : (entry P (be64 v) us).length = 10 + 6 * us.length := by
  rw [entry, List.length_append, List.length_append, be64_length, beN_length, subs_length]

/-- Reading the bytes of a size gives the size. -/
theorem fold_beN : ∀ (k x a : Nat), (beN k x).foldl (fun a b => (a * 256 + b.toNat) % 2 ^ 32) (a % 2 ^ 32) = (a * 256 ^ k + x % 256 ^ k) % 2 ^ 32
  | 0, x, a => by simp [beN]; omega
  | k + 1, x, a => by
    rw [beN, List.foldl_cons, UInt8.toNat_ofNat']
    have h := fold_beN k x (a % 2 ^ 32 * 256 + x / 256 ^ k % 2 ^ 8)
    rw [h]
    have e1 : x % 256 ^ (k + 1) = 256 ^ k * (x / 256 ^ k % 256) + x % 256 ^ k := by
      rw [Nat.pow_succ, Nat.mod_mul]; omega
    rw [e1, show (2 : Nat) ^ 8 = 256 from rfl]
    have e2 : (a % 2 ^ 32 * 256 + x / 256 ^ k % 256) * 256 ^ k = (a % 2 ^ 32) * 256 ^ (k + 1) + 256 ^ k * (x / 256 ^ k % 256) := by
      rw [Nat.add_mul, Nat.mul_assoc, show 256 ^ (k + 1) = 256 ^ k * 256 from Nat.pow_succ _ _, Nat.mul_comm 256 (256 ^ k), Nat.mul_comm (x / 256 ^ k % 256)]
    rw [e2, Nat.add_assoc, Nat.add_mod, Nat.mul_mod, Nat.mod_mod, ← Nat.mul_mod, ← Nat.add_mod]

/-- The bytes of a size that was read are the bytes of the number. -/
theorem beN_fold : ∀ (l : List UInt8), l.length ≤ 4 → beN l.length (l.foldl (fun a b => (a * 256 + b.toNat) % 2 ^ 32) 0) = l := by
  intro l hl
  have key : ∀ (l : List UInt8) (a : Nat), a * 256 ^ l.length + 256 ^ l.length ≤ 2 ^ 32 →
      (l.foldl (fun a b => (a * 256 + b.toNat) % 2 ^ 32) a) / 256 ^ l.length = a ∧
      (l.foldl (fun a b => (a * 256 + b.toNat) % 2 ^ 32) a) < 2 ^ 32 ∧
      beN l.length (l.foldl (fun a b => (a * 256 + b.toNat) % 2 ^ 32) a) = l := by
    intro l
    induction l with
    | nil => intro a ha; simp at ha ⊢; simp [beN]; omega
    | cons b l ih =>
      intro a ha
      rw [List.foldl_cons, List.length_cons]
      have hb : b.toNat < 256 := b.toNat_lt
      have hp : 0 < 256 ^ l.length := Nat.pow_pos (by omega)
      have h1 : (a * 256 + b.toNat) * 256 ^ l.length + 256 ^ l.length ≤ 2 ^ 32 := by
        rw [List.length_cons, Nat.pow_succ] at ha
        have e : a * (256 ^ l.length * 256) + 256 ^ l.length * 256 = (a * 256 + 256) * 256 ^ l.length := by
          rw [Nat.add_mul, Nat.mul_comm (256 ^ l.length) 256, Nat.mul_assoc]
        rw [e] at ha
        have : (a * 256 + b.toNat) * 256 ^ l.length + 256 ^ l.length = (a * 256 + b.toNat + 1) * 256 ^ l.length := by rw [Nat.add_mul _ 1, Nat.one_mul]
        rw [this]
        exact Nat.le_trans (Nat.mul_le_mul_right _ (by omega)) ha
      have h2 : a * 256 + b.toNat < 2 ^ 32 := by
        have : a * 256 + b.toNat ≤ (a * 256 + b.toNat) * 256 ^ l.length := Nat.le_mul_of_pos_right _ hp
        omega
      rw [Nat.mod_eq_of_lt h2]
      obtain ⟨i1, i2, i3⟩ := ih (a * 256 + b.toNat) h1
      refine ⟨?_, i2, ?_⟩
      · rw [show 256 ^ (l.length + 1) = 256 ^ l.length * 256 from Nat.pow_succ _ _, ← Nat.div_div_eq_div_mul, i1]; omega
      · rw [beN, i1, i3]
        congr 1
        rw [← UInt8.toNat_inj, UInt8.toNat_ofNat']
        omega
  have h4 : 256 ^ l.length ≤ 2 ^ 32 := by
    have : 256 ^ l.length ≤ 256 ^ 4 := Nat.pow_le_pow_right (by omega) hl
    exact this
  exact (key l 0 (by omega)).2.2

theorem fold_lt (l : List UInt8) : l.foldl (fun a b => (a * 256 + b.toNat) % 2 ^ 32) 0 < 256 ^ l.length := by
  have : ∀ (l : List UInt8) (a m : Nat), a < m → l.foldl (fun a b => (a * 256 + b.toNat) % 2 ^ 32) a < m * 256 ^ l.length := by
    intro l
    induction l with
    | nil => intro a m h; simpa using h
    | cons b l ih =>
      intro a m h
      rw [List.foldl_cons, List.length_cons, show 256 ^ (l.length + 1) = 256 * 256 ^ l.length by rw [Nat.pow_succ, Nat.mul_comm], ← Nat.mul_assoc]
      apply ih
      have hb : b.toNat < 256 := b.toNat_lt
      have := Nat.mod_le (a * 256 + b.toNat) (2 ^ 32)
      omega
  have := this l 0 1 (by omega)
  omega

/-- Sizes that have the same bytes are equal. -/
theorem beN_inj {n x y : Nat} (hn : n ≤ 4) (hx : x < 256 ^ n) (hy : y < 256 ^ n) (h : beN n x = beN n y) : x = y := by
  have h4 : 256 ^ n ≤ 2 ^ 32 := by
    have : 256 ^ n ≤ 256 ^ 4 := Nat.pow_le_pow_right (by omega) hn
    exact this
  have e1 := fold_beN n x 0
  have e2 := fold_beN n y 0
  rw [h, e2, Nat.mod_eq_of_lt hx, Nat.mod_eq_of_lt hy, Nat.zero_mul, Nat.zero_add, Nat.zero_add, Nat.mod_eq_of_lt (by omega), Nat.mod_eq_of_lt (by omega)] at e1
  exact e1.symm

theorem fold_beN' {n x : Nat} (hn : n ≤ 4) (hx : x < 256 ^ n) : (beN n x).foldl (fun a b => (a * 256 + b.toNat) % 2 ^ 32) 0 = x := by
  have h4 : 256 ^ n ≤ 2 ^ 32 := by
    have : 256 ^ n ≤ 256 ^ 4 := Nat.pow_le_pow_right (by omega) hn
    exact this
  have e1 := fold_beN n x 0
  rw [Nat.mod_eq_of_lt hx, Nat.zero_mul, Nat.zero_add, Nat.mod_eq_of_lt (show x < 2 ^ 32 by omega)] at e1
  exact e1

/-- A frame has one reading as units. -/
theorem plain_prefix {n : Nat} (hn : n ≤ 4) (h1 : 1 ≤ n) : ∀ (us ws : List (List UInt8)) (x y : List UInt8), Units n us → Units n ws →
    (plain n us).length ≤ (plain n ws).length → plain n us ++ x = plain n ws ++ y → ∃ zs, ws = us ++ zs
  | [], ws, _, _, _, _, _, _ => ⟨ws, rfl⟩
  | u :: us, [], _, _, _, _, hl, _ => by
    simp [plain, unit_length] at hl; omega
  | u :: us, w :: ws, x, y, hu, hw, hl, he => by
    have d : ∀ (a : List UInt8) (l : List (List UInt8)), plain n (a :: l) = beN n a.length ++ (a ++ plain n l) := by
      intro a l; simp [plain, unit]
    have hlen : ∀ (a : List UInt8) (l : List (List UInt8)), (plain n (a :: l)).length = n + a.length + (plain n l).length := by
      intro a l; rw [d]; simp [beN_length]; omega
    rw [hlen, hlen] at hl
    rw [d, d] at he
    simp only [List.append_assoc] at he
    obtain ⟨e1, e2⟩ := List.append_inj he (by rw [beN_length, beN_length])
    have e3 := beN_inj hn (hu u (by simp)).2 (hw w (by simp)).2 e1
    obtain ⟨e4, e5⟩ := List.append_inj e2 e3
    obtain ⟨zs, e6⟩ := plain_prefix hn h1 us ws x y (fun a h => hu a (by simp [h])) (fun a h => hw a (by simp [h])) (by omega) e5
    exact ⟨zs, by rw [e4, e6]; rfl⟩

theorem plain_pos {n : Nat} : ∀ (us : List (List UInt8)), Units n us → us ≠ [] → n < (plain n us).length
  | [], _, h => absurd rfl h
  | u :: us, hu, _ => by
    have := (hu u (by simp)).1
    simp [plain, unit_length]; omega

theorem plain_inj {n : Nat} (hn : n ≤ 4) (h1 : 1 ≤ n) {us ws : List (List UInt8)} {x y : List UInt8} (hu : Units n us) (hw : Units n ws)
    (hl : (plain n us).length = (plain n ws).length) (he : plain n us ++ x = plain n ws ++ y) : us = ws := by
  obtain ⟨zs, e⟩ := plain_prefix hn h1 us ws x y hu hw (by omega) he
  have : zs = [] := by
    apply Classical.byContradiction
    intro h
    have := plain_pos zs (fun a ha => hw a (by rw [e]; simp [ha])) h
    have e2 : (plain n ws).length = (plain n us).length + (plain n zs).length := by rw [e]; simp [plain]
    omega
  rw [e, this, List.append_nil]

/-- The frames of a fragment: their units, and the sizes announced for them. -/
def Wf (n : Nat) (all : List Nat) (fs : List (List (List UInt8))) : Prop :=
  (∀ us ∈ fs, Units n us) ∧ fs.map (fun us => (plain n us).length) = all

/-- Frames that are complete are the frames of the fragment. -/
theorem plains_prefix {n : Nat} (hn : n ≤ 4) (h1 : 1 ≤ n) : ∀ (dn fs : List (List (List UInt8))) (rest : List Nat) (x : List UInt8),
    (∀ us ∈ dn, Units n us) → Wf n (dn.map (fun us => (plain n us).length) ++ rest) fs → plains n dn ++ x = plains n fs →
    ∃ r, fs = dn ++ r ∧ Wf n rest r ∧ x = plains n r
  | [], fs, rest, x, _, hf, he => ⟨fs, rfl, hf, he⟩
  | us :: dn, [], rest, x, _, hf, _ => by have := hf.2; simp at this
  | us :: dn, ws :: fs, rest, x, hd, hf, he => by
    have hs := hf.2
    rw [List.map_cons, List.map_cons, List.cons_append] at hs
    injection hs with a1 a2
    have d : ∀ (a : List (List UInt8)) l, plains n (a :: l) = plain n a ++ plains n l := by intro a l; simp [plains]
    rw [d, d, List.append_assoc] at he
    have e := plain_inj hn h1 (hd us (by simp)) (hf.1 ws (by simp)) a1.symm he
    rw [e] at he
    obtain ⟨r, r1, r2, r3⟩ := plains_prefix hn h1 dn fs rest x (fun a h => hd a (by simp [h])) ⟨fun a h => hf.1 a (by simp [h]), a2⟩ (List.append_cancel_left he)
    exact ⟨r, by rw [e, r1]; rfl, r2, r3⟩

/-! ## Phases -/

/-- Where the writer is. -/
inductive Ph where
  /-- between frames -/
  | idle
  /-- an empty frame was started -/
  | zero
  /-- in a frame of size `f` after the units `us`, with the bytes `hb` of the next size -/
  | head (f : Nat) (us : List (List UInt8)) (hb : List UInt8)
  /-- in a unit with type `b`, after the bytes `u`; `r` bytes are left -/
  | body (f : Nat) (us : List (List UInt8)) (b : UInt8) (u : List UInt8) (r : Nat)

/-- What was read of the frame. -/
def Ph.read (P : Par) : Ph → List UInt8
  | .idle | .zero => []
  | .head _ us hb => plain P.n us ++ hb
  | .body _ us b u r => plain P.n us ++ (beN P.n (1 + u.length + r) ++ b :: u)

/-- What was written of the frame. -/
def Ph.wrote (P : Par) (v : Nat) : Ph → List UInt8
  | .idle | .zero => []
  | .head _ us _ => encUnits P (stream P.E (be64 v)) 0 us
  | .body _ us b u r => encUnits P (stream P.E (be64 v)) 0 us ++ (beN P.n (1 + u.length + r) ++ encData P (stream P.E (be64 v)) (encSizes P us) (b :: u))

/-- The auxiliary data of the frame so far. -/
def Ph.aux (P : Par) (v : Nat) : Ph → List UInt8
  | .idle => []
  | .zero => be64 v ++ [0, 0]
  | .head _ us _ => be64 v ++ [0, 0] ++ us.flatMap (unitSub P)
  | .body _ us b u r => be64 v ++ [0, 0] ++ (us.flatMap (unitSub P) ++ subBytes P (isSlice P b) (1 + u.length + r))

def Ph.cur : Ph → List Nat
  | .idle => []
  | .zero => [0]
  | .head f _ _ | .body f _ _ _ _ => [f]

/-- What the fields have in each phase. `v` is the IV of the frame. -/
def Ph.Fits (P : Par) (v : Nat) (s : V) : Ph → Prop
  | .idle => s.left = 0 ∧ s.ps = .size ∧ s.lenLeft = P.n ∧ s.pkt = 0 ∧ s.iv = be64 v
  | .zero => s.left = 0 ∧ s.ps = .enc ∧ s.pkt = 0 ∧ s.subs = 0 ∧ s.ctr.At P.E (be64 v) 0 ∧ s.iv = be64 (v + 1)
  | .head f us hb => Units P.n us ∧ (plain P.n us).length + P.n < f ∧ s.left = f - (plain P.n us).length ∧ s.ps = .size ∧ hb.length ≤ P.n ∧
      s.lenLeft = P.n - hb.length ∧ s.pkt = hb.foldl (fun a b => (a * 256 + b.toNat) % 2 ^ 32) 0 ∧ s.subs = us.length % 2 ^ 16 ∧
      s.ctr.At P.E (be64 v) (encSizes P us) ∧ s.iv = be64 (v + 1)
  | .body f us b u r => Units P.n us ∧ 1 + u.length + r < 256 ^ P.n ∧ (plain P.n us).length + P.n + (1 + u.length + r) ≤ f ∧
      s.left = f - ((plain P.n us).length + P.n + (1 + u.length + r)) ∧ (0 < s.left → P.n < s.left) ∧
      s.ps = (if isSlice P b then .enc else .copy) ∧ s.pkt = r ∧ s.subs = (us.length + 1) % 2 ^ 16 ∧
      s.ctr.At P.E (be64 v) (encSizes P us + if isSlice P b then u.length else 0) ∧ s.iv = be64 (v + 1)

def Ph.Pos : Ph → Prop
  | .body _ _ _ _ r => 0 < r
  | _ => True

/-- The writer after it got the bytes `c` of a fragment with frames of sizes `all`. The frames `dn` are complete. -/
structure VB (P : Par) (v : Nat) (all : List Nat) (s : V) (dn : List (List (List UInt8))) (ph : Ph) (c : List UInt8) : Prop where
  units : ∀ us ∈ dn, Units P.n us
  frames : all = dn.map (fun us => (plain P.n us).length) ++ ph.cur ++ s.frames
  read : c = plains P.n dn ++ ph.read P
  wrote : s.wb.all = outs P v dn ++ ph.wrote P (v + dn.length)
  wb : s.wb.Ok
  aux : (∀ us ∈ dn, us.length < 2 ^ 16) → s.aux = entries P v dn ++ ph.aux P (v + dn.length)
  sizes : s.sizes = dn.map (fun us => UInt8.ofNat (10 + us.length % 2 ^ 16 * 6))
  fin : s.done = true ↔ ph = .idle ∧ dn ≠ [] ∧ s.frames = []
  sent : s.done = true → s.wb.sent = s.wb.all

structure VAt (P : Par) (v : Nat) (all : List Nat) (s : V) (dn : List (List (List UInt8))) (ph : Ph) (c : List UInt8) : Prop where
  base : VB P v all s dn ph c
  fits : ph.Fits P (v + dn.length) s
  pos : ph.Pos

/-- What is assumed: sizes have 1 to 4 bytes, and output buffers have room for a block. -/
structure Par.Ok (P : Par) : Prop where
  n1 : 1 ≤ P.n
  n4 : P.n ≤ 4
  bs : 16 ≤ P.bs

theorem VAt.init (P : Par) (v : Nat) (all : List Nat) : VAt P v all (V.init P (be64 v) all) [] .idle [] where
  base :=
    { units := fun _ h => by simp at h
      frames := rfl
      read := rfl
      wrote := rfl
      wb := by simp [V.init, WB.init, WB.Ok]
      aux := fun _ => rfl
      sizes := rfl
      fin := by simp [V.init]
      sent := by simp [V.init] }
  fits := ⟨rfl, rfl, rfl, rfl, rfl⟩
  pos := trivial

/-! ## One iteration -/

/-- A frame is complete. -/
theorem endFrame_at {P : Par} {v : Nat} {all : List Nat} {s : V} {dn : List (List (List UInt8))} {f : Nat} {us : List (List UInt8)} {c : List UInt8}
    (hb : VB P v all s dn (.head f us []) c) (hu : Units P.n us) (hf : f = (plain P.n us).length) (hl : s.left = 0) (hps : s.ps = .size)
    (hn : s.lenLeft = P.n) (hk : s.pkt = 0) (hsub : s.subs = us.length % 2 ^ 16) (hiv : s.iv = be64 (v + dn.length + 1)) :
    ∃ s', (if s.endFrame.frames ≠ [] then Res.ok s.endFrame else .ok { s.endFrame with wb := s.endFrame.wb.flush P.bs false, done := true }) = .ok s' ∧
      VAt P v all s' (dn ++ [us]) .idle c ∧ s'.frames = s.frames ∧ s'.ps = .size := by
  have hd : s.done = false := by
    cases h : s.done with
    | false => rfl
    | true => have := hb.fin.1 h; simp at this
  have haux : (∀ w ∈ dn ++ [us], w.length < 2 ^ 16) → s.endFrame.aux = entries P v (dn ++ [us]) := by
    intro h
    have h1 : us.length < 2 ^ 16 := h us (by simp)
    have h2 := hb.aux (fun w hw => h w (by simp [hw]))
    have h3 : s.subs = us.length := by rw [hsub, Nat.mod_eq_of_lt h1]
    rw [entries_snoc]
    simp only [V.endFrame, h3]
    rw [h2]
    have h4 : (Ph.aux P (v + dn.length) (.head f us [])).length = 10 + us.length * 6 := by
      simp only [Ph.aux, List.length_append, be64_length, subs_length]; simp; omega
    rw [List.length_append, h4, show (entries P v dn).length + (10 + us.length * 6) - (10 + us.length * 6) + 8 = (entries P v dn).length + 8 by omega]
    simp only [patch, Ph.aux, entry, beN_length]
    have h8 : (be64 (v + dn.length)).length = 8 := be64_length _
    rw [← List.append_assoc, ← List.append_assoc, List.append_assoc (entries P v dn ++ be64 (v + dn.length))]
    rw [List.take_append_of_le_length (by simp [h8])]
    rw [List.take_of_length_le (by simp [h8])]
    rw [List.drop_append, List.drop_of_length_le (by simp [h8])]
    simp [h8]
  have base : ∀ s', s'.frames = s.frames → s'.wb.all = s.wb.all → s'.wb.Ok → s'.aux = s.endFrame.aux → s'.sizes = s.endFrame.sizes →
      (s'.done = true ↔ s.frames = []) → (s'.done = true → s'.wb.sent = s'.wb.all) → VB P v all s' (dn ++ [us]) .idle c := by
    intro s' a1 a2 a3 a4 a5 a6 a7
    refine ⟨?_, ?_, ?_, ?_, a3, ?_, ?_, ?_, a7⟩
    · intro w hw
      rcases List.mem_append.1 hw with h | h
      · exact hb.units w h
      · simp at h; rw [h]; exact hu
    · rw [hb.frames, a1, hf]; simp [Ph.cur]
    · rw [hb.read, plains_snoc]; simp [Ph.read]
    · rw [a2, hb.wrote, outs_snoc]; simp [Ph.wrote]
    · intro h; rw [a4, haux h]; simp [Ph.aux]
    · rw [a5]; simp only [V.endFrame, hb.sizes, hsub]; simp
    · rw [a6, a1]; simp
  have fits : ∀ s', s'.left = 0 → s'.ps = .size → s'.lenLeft = P.n → s'.pkt = 0 → s'.iv = s.iv → (Ph.idle).Fits P (v + (dn ++ [us]).length) s' := by
    intro s' a1 a2 a3 a4 a5
    refine ⟨a1, a2, a3, a4, ?_⟩
    rw [a5, hiv]; simp [Nat.add_assoc]
  by_cases hfr : s.endFrame.frames ≠ []
  · rw [if_pos hfr]
    refine ⟨_, rfl, ⟨base _ rfl rfl hb.wb rfl rfl ?_ ?_, fits _ hl hps hn hk rfl, trivial⟩, rfl, hps⟩
    · show s.done = true ↔ _
      have hfr' : s.frames ≠ [] := hfr
      rw [hd]; simpa using hfr'
    · show s.done = true → _
      rw [hd]; simp
  · rw [if_neg hfr]
    refine ⟨_, rfl, ⟨base _ rfl (WB.flush_all _ _ _) (WB.flush_ok _ _ _) rfl rfl ?_ ?_, fits _ hl hps hn hk rfl, trivial⟩, rfl, hps⟩
    · have hfr' : ¬ s.frames ≠ [] := hfr
      simpa using hfr'
    · intro _; show (s.wb.flush P.bs false).sent = (s.wb.flush P.bs false).all
      rw [WB.flush_sent, WB.flush_all]

/-- After a unit: the next one, or the end of the frame. -/
theorem afterUnit_at {P : Par} {v : Nat} {all : List Nat} {s : V} {dn : List (List (List UInt8))} {f : Nat} {us : List (List UInt8)} {c : List UInt8}
    (hb : VB P v all s dn (.head f us []) c) (hu : Units P.n us) (hf : (plain P.n us).length ≤ f) (hl : s.left = f - (plain P.n us).length)
    (hr : 0 < s.left → P.n < s.left) (hps : s.ps = .size)
    (hn : s.lenLeft = P.n) (hk : s.pkt = 0) (hsub : s.subs = us.length % 2 ^ 16) (hctr : s.ctr.At P.E (be64 (v + dn.length)) (encSizes P us))
    (hiv : s.iv = be64 (v + dn.length + 1)) (buf : List UInt8) :
    ∃ s' dn' ph', (if s.left > 0 then Res.ok (s, buf)
        else if s.endFrame.frames ≠ [] then .ok (s.endFrame, buf) else .ok ({ s.endFrame with wb := s.endFrame.wb.flush P.bs false, done := true }, buf)) = .ok (s', buf) ∧
      VAt P v all s' dn' ph' c ∧ s'.frames = s.frames ∧ s'.ps = .size := by
  by_cases h : s.left > 0
  · rw [if_pos h]
    refine ⟨s, dn, .head f us [], rfl, ⟨hb, ?_, trivial⟩, rfl, hps⟩
    have := hr h
    exact ⟨hu, by omega, hl, hps, by simp, by simp [hn], by simp [hk], hsub, hctr, hiv⟩
  · rw [if_neg h]
    obtain ⟨s', e1, e2, e3, e4⟩ := endFrame_at hb hu (by omega) (by omega) hps hn hk hsub hiv
    refine ⟨s', dn ++ [us], .idle, ?_, e2, e3, e4⟩
    by_cases hfr : s.endFrame.frames ≠ []
    · rw [if_pos hfr] at e1 ⊢; injection e1 with e1; rw [e1]
    · rw [if_neg hfr] at e1 ⊢; injection e1 with e1; rw [e1]

theorem encData_append (P : Par) (ks : Nat → UInt8) (p : Nat) (b : UInt8) (u d : List UInt8) :
    encData P ks p (b :: (u ++ d)) = encData P ks p (b :: u) ++ (if isSlice P b then xorAt ks (p + u.length) d else d) := by
  simp only [encData]
  split
  · rw [xorAt_append, List.cons_append]
  · rfl

/-- The data of a unit. -/
theorem body_at {P : Par} (hP : P.Ok) {v : Nat} {all : List Nat} {s : V} {dn : List (List (List UInt8))} {f : Nat} {us : List (List UInt8)} {b : UInt8}
    {u : List UInt8} {r : Nat} {c : List UInt8} (hb : VB P v all s dn (.body f us b u r) c) (hf : (Ph.body f us b u r).Fits P (v + dn.length) s)
    (buf : List UInt8) :
    ∃ s' dn' ph', s.body P buf = .ok (s', buf.drop r) ∧ VAt P v all s' dn' ph' (c ++ buf.take r) ∧ s'.frames = s.frames := by
  obtain ⟨g1, g2, g3, g4, g5, g6, g7, g8, g9, g10⟩ := hf
  have ht : buf.take (min buf.length s.pkt) = buf.take r := by
    rw [g7, List.take_eq_take_iff]; omega
  have hdr : buf.drop (min buf.length s.pkt) = buf.drop r := by
    rw [g7, List.drop_eq_drop_iff]; omega
  have hw : min buf.length s.pkt = (buf.take r).length := by rw [g7, List.length_take]; omega
  -- the write
  have hput : ∃ c' wb', s.put P (buf.take r) = .ok { s with ctr := c', wb := wb' } ∧
      c'.At P.E (be64 (v + dn.length)) (encSizes P us + if isSlice P b then (u ++ buf.take r).length else 0) ∧
      wb'.all = s.wb.all ++ (if isSlice P b then xorAt (stream P.E (be64 (v + dn.length))) (encSizes P us + u.length) (buf.take r) else buf.take r) ∧ wb'.Ok := by
    unfold V.put
    by_cases hs : isSlice P b = true
    · rw [if_pos hs] at g6 g9
      rw [if_pos g6]
      obtain ⟨c', wb', e1, e2, e3, e4⟩ := writeEnc_spec hP.bs g9 hb.wb (buf.take r)
      refine ⟨c', wb', by rw [e1]; rfl, ?_, ?_, e4⟩
      · rw [if_pos hs, List.length_append, ← Nat.add_assoc]; exact e2
      · rw [if_pos hs]; exact e3
    · rw [if_neg hs] at g6 g9
      rw [if_neg (by rw [g6]; simp)]
      obtain ⟨wb', e1, e2, e3⟩ := WB.write_spec (bs := P.bs) (by have := hP.bs; omega) hb.wb (buf.take r)
      refine ⟨s.ctr, wb', by rw [e1]; rfl, ?_, ?_, e3⟩
      · rw [if_neg hs]; exact g9
      · rw [if_neg hs]; exact e2
  obtain ⟨c', wb', e1, e2, e3, e4⟩ := hput
  unfold V.body
  dsimp only
  rw [ht, hdr, e1, Res.bind_ok, hw]
  have hd : s.done = false := by
    cases h : s.done with
    | false => rfl
    | true => have := hb.fin.1 h; simp at this
  have hlen : 1 + (u ++ buf.take r).length + (r - (buf.take r).length) = 1 + u.length + r := by
    rw [List.length_append, List.length_take]; omega
  have hall : wb'.all = outs P v dn ++ (encUnits P (stream P.E (be64 (v + dn.length))) 0 us ++ (beN P.n (1 + u.length + r) ++
      encData P (stream P.E (be64 (v + dn.length))) (encSizes P us) (b :: (u ++ buf.take r)))) := by
    rw [e3, hb.wrote, encData_append]; simp [Ph.wrote]
  have hread : c ++ buf.take r = plains P.n dn ++ (plain P.n us ++ (beN P.n (1 + u.length + r) ++ b :: (u ++ buf.take r))) := by
    rw [hb.read]; simp [Ph.read]
  by_cases hp : s.pkt - (buf.take r).length > 0
  · rw [if_pos hp]
    rw [g7] at hp
    refine ⟨_, dn, .body f us b (u ++ buf.take r) (r - (buf.take r).length), rfl, ⟨⟨hb.units, hb.frames, ?_, ?_, e4, ?_, hb.sizes, ?_, ?_⟩, ?_, hp⟩, rfl⟩
    · rw [hread]; simp only [Ph.read]; rw [hlen]
    · show wb'.all = _
      rw [hall]; simp only [Ph.wrote]; rw [hlen]
    · intro h; show s.aux = _
      rw [hb.aux h]; simp only [Ph.aux]; rw [hlen]
    · show s.done = true ↔ _
      rw [hd]; simp
    · show s.done = true → _
      rw [hd]; simp
    · simp only [Ph.Fits]
      rw [hlen, g7]
      exact ⟨g1, g2, g3, g4, g5, g6, rfl, g8, e2, g10⟩
  · rw [if_neg hp]
    have hr : (buf.take r).length = r := by rw [g7] at hp; simp only [List.length_take] at hp ⊢; omega
    have hlen' : (b :: (u ++ buf.take r)).length = 1 + u.length + r := by simp only [List.length_cons, List.length_append, hr]; omega
    have hpl : (plain P.n (us ++ [b :: (u ++ buf.take r)])).length = (plain P.n us).length + P.n + (1 + u.length + r) := by
      rw [plain_snoc, List.length_append, unit_length, hlen']; omega
    have he : encSizes P (us ++ [b :: (u ++ buf.take r)]) = encSizes P us + if isSlice P b then (u ++ buf.take r).length else 0 := by
      rw [encSizes_snoc]
      simp only [encSize, sliced, List.length_cons, Nat.add_sub_cancel]
    have key := @afterUnit_at P v all { s with ctr := c', wb := wb', ps := .size, lenLeft := P.n, pkt := 0 } dn f (us ++ [b :: (u ++ buf.take r)])
      (c ++ buf.take r) ⟨hb.units, hb.frames, ?_, ?_, e4, ?_, hb.sizes, ?_, ?_⟩ ?_ ?_ ?_ ?_ rfl rfl rfl ?_ ?_ ?_ (buf.drop r)
    · obtain ⟨s', dn', ph', k1, k2, k3, k4⟩ := key
      exact ⟨s', dn', ph', k1, k2, k3⟩
    · rw [hread]; simp only [Ph.read, plain_snoc, unit, hlen']; simp
    · show wb'.all = _
      rw [hall]
      simp only [Ph.wrote, encUnits_snoc, hlen', Nat.zero_add]
    · intro h; show s.aux = _
      rw [hb.aux h]; simp only [Ph.aux, List.flatMap_append, unitSub, List.flatMap_cons, List.flatMap_nil, List.append_nil, hlen', sliced]
    · show s.done = true ↔ _
      rw [hd]; simp
    · show s.done = true → _
      rw [hd]; simp
    · intro w hw
      rcases List.mem_append.1 hw with h | h
      · exact g1 w h
      · simp only [List.mem_singleton] at h
        rw [h, hlen']; omega
    · rw [hpl]; exact g3
    · rw [hpl]; exact g4
    · exact g5
    · show s.subs = _
      rw [g8]; simp
    · rw [he]; exact e2
    · exact g10

theorem VB.notDone {P : Par} {v : Nat} {all : List Nat} {s : V} {dn : List (List (List UInt8))} {ph : Ph} {c : List UInt8} (hb : VB P v all s dn ph c)
    (h : ph ≠ .idle) : s.done = false := by
  cases hd : s.done with
  | false => rfl
  | true => exact absurd (hb.fin.1 hd).1 h

/-- The end of an empty frame. -/
theorem zero_at {P : Par} (hP : P.Ok) {v : Nat} {all : List Nat} {s : V} {dn : List (List (List UInt8))} {c : List UInt8} (h : VAt P v all s dn .zero c)
    (buf : List UInt8) : ∃ s' dn' ph', s.body P buf = .ok (s', buf) ∧ VAt P v all s' dn' ph' c ∧ s'.frames = s.frames ∧ s'.ps = .size := by
  obtain ⟨hb, ⟨g1, g2, g3, g4, g5, g6⟩, _⟩ := h
  have hd := hb.notDone (by simp)
  unfold V.body
  dsimp only
  rw [g3, Nat.min_zero, List.take_zero, List.drop_zero]
  obtain ⟨c', wb', e1, e2, e3, e4⟩ := writeEnc_spec hP.bs g5 hb.wb []
  have hput : s.put P [] = .ok { s with ctr := c', wb := wb' } := by
    unfold V.put; rw [if_pos g2, e1]; rfl
  rw [hput, Res.bind_ok]
  dsimp only
  rw [g3, if_neg (by omega)]
  refine afterUnit_at (f := 0) (us := []) (s := { s with ctr := c', wb := wb', ps := .size, lenLeft := P.n, pkt := 0 }) (dn := dn) (c := c)
    ⟨hb.units, hb.frames, hb.read, ?_, e4, ?_, hb.sizes, ?_, ?_⟩ ?_ ?_ ?_ ?_ rfl rfl rfl ?_ ?_ ?_ buf
  · show wb'.all = _
    rw [e3, hb.wrote]; simp [xorAt, Ph.wrote, encUnits]
  · intro h; show s.aux = _
    rw [hb.aux h]; simp [Ph.aux]
  · show s.done = true ↔ _
    rw [hd]; simp
  · show s.done = true → _
    rw [hd]; simp
  · intro w hw; simp at hw
  · simp [plain]
  · simp [plain]; exact g1
  · show 0 < s.left → _
    omega
  · show s.subs = _
    rw [g4]; rfl
  · exact e2
  · exact g6

/-- The type of a unit, and its data. -/
theorem nalType_at {P : Par} (hP : P.Ok) {v : Nat} {all : List Nat} {s : V} {dn : List (List (List UInt8))} {f : Nat} {us : List (List UInt8)}
    {hd : List UInt8} {c : List UInt8} (hb : VB P v all s dn (.head f us hd) c) (hu : Units P.n us) (hl : hd.length = P.n)
    (hk : s.pkt = hd.foldl (fun a b => (a * 256 + b.toNat) % 2 ^ 32) 0) (h0 : 0 < s.pkt) (hf : (plain P.n us).length + P.n + s.pkt ≤ f)
    (hleft : s.left = f - ((plain P.n us).length + P.n + s.pkt)) (hr : 0 < s.left → P.n < s.left) (hsub : s.subs = us.length % 2 ^ 16)
    (hctr : s.ctr.At P.E (be64 (v + dn.length)) (encSizes P us)) (hiv : s.iv = be64 (v + dn.length + 1)) (b : UInt8) (buf : List UInt8) :
    ∃ s' dn' ph', s.nalType P (b :: buf) = .ok (s', buf.drop (s.pkt - 1)) ∧ VAt P v all s' dn' ph' (c ++ b :: buf.take (s.pkt - 1)) ∧ s'.frames = s.frames := by
  have hnd := hb.notDone (by simp)
  have hn4 := hP.n4
  have hlt : s.pkt < 256 ^ P.n := by rw [hk, ← hl]; exact fold_lt hd
  have hbe : beN P.n s.pkt = hd := by rw [hk, ← hl]; exact beN_fold hd (by omega)
  obtain ⟨wb1, e1, e2, e3⟩ := WB.room_spec (bs := P.bs) (s := s.wb) (min := P.n + 1) (by have := hP.bs; omega)
  obtain ⟨wb2, e4, e5, e6⟩ := WB.put_spec (s := wb1) (d := beN P.n s.pkt ++ [b]) (by simp [beN_length]; omega)
  rw [V.nalType, e1, Res.bind_ok, e4, Res.bind_ok]
  dsimp only
  have hs1 : 1 + ([] : List UInt8).length + (s.pkt - 1) = s.pkt := by simp; omega
  have hread : c ++ [b] = plains P.n dn ++ Ph.read P (.body f us b [] (s.pkt - 1)) := by
    rw [hb.read]; simp only [Ph.read]; rw [hs1, hbe]; simp
  have hwrote : wb2.all = outs P v dn ++ Ph.wrote P (v + dn.length) (.body f us b [] (s.pkt - 1)) := by
    rw [e5, e2, hb.wrote]; simp only [Ph.wrote]; rw [hs1]; simp [encData, xorAt]
  have fin : ∀ s1 : V, s1.frames = s.frames → s1.done = s.done → s1.wb = wb2 → s1.sizes = s.sizes → s1.left = s.left → s1.pkt = s.pkt - 1 →
      s1.ctr = s.ctr → s1.iv = s.iv → s1.ps = (if isSlice P b then .enc else .copy) → s1.subs = (s.subs + 1) % 2 ^ 16 →
      s1.aux = s.aux ++ subBytes P (isSlice P b) s.pkt →
      ∃ s' dn' ph', s1.body P buf = .ok (s', buf.drop (s.pkt - 1)) ∧ VAt P v all s' dn' ph' (c ++ b :: buf.take (s.pkt - 1)) ∧ s'.frames = s.frames := by
    intro s1 a1 a2 a3 a4 a5 a6 a7 a8 a9 a10 a11
    have key := @body_at P hP v all s1 dn f us b [] (s.pkt - 1) (c ++ [b]) ⟨hb.units, ?_, hread, ?_, ?_, ?_, ?_, ?_, ?_⟩ ?_ buf
    · obtain ⟨s', dn', ph', k1, k2, k3⟩ := key
      refine ⟨s', dn', ph', k1, ?_, by rw [k3, a1]⟩
      rw [List.append_assoc] at k2
      exact k2
    · rw [a1]; exact hb.frames
    · rw [a3]; exact hwrote
    · rw [a3]; exact e6
    · intro h; rw [a11, hb.aux h]; simp only [Ph.aux]; rw [hs1]; simp
    · rw [a4]; exact hb.sizes
    · rw [a2, hnd]; simp
    · rw [a2, hnd]; simp
    · simp only [Ph.Fits]
      rw [hs1]
      refine ⟨hu, hlt, hf, by rw [a5]; exact hleft, by rw [a5]; exact hr, a9, a6, ?_, ?_, by rw [a8]; exact hiv⟩
      · rw [a10, hsub]; omega
      · rw [a7]; simpa using hctr
  by_cases hs : isSlice P b = true
  · rw [if_pos hs]
    refine fin _ rfl rfl rfl rfl rfl rfl rfl rfl ?_ rfl ?_
    · rw [if_pos hs]; rfl
    · rw [hs]; simp [V.addSub, subBytes]
  · rw [if_neg hs]
    refine fin _ rfl rfl rfl rfl rfl rfl rfl rfl ?_ rfl ?_
    · rw [if_neg hs]; rfl
    · have : isSlice P b = false := by simpa using hs
      rw [this]
      simp [V.addSub, subBytes]
      rw [show P.n + 1 + (s.pkt - 1) = P.n + s.pkt by omega]

end Verif.Cenc
