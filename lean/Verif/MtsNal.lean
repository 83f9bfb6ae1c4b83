import Verif.MtsVideo
import Verif.MtsSpec

/-! # Frames of video that are NAL units with lengths -/

namespace Verif.Mts

open MtsSpec

theorem nal_steps (a : Annexb) (b : UInt8) (r : List UInt8) (hs : a.state = .size) (hl : a.lenLeft = 0) (hp : a.packetLeft ≠ 0) :
    a.steps (b :: r) = ((a.nalType b).1.steps (b :: r)).map (fun x => (x.1, bytesOf (a.nalType b).2 ++ x.2)) := by
  obtain ⟨n1, _⟩ := nalType_state a b
  rw [Annexb.steps, Annexb.steps, step_body _ _ n1]
  have : a.step b = .ok (((a.nalType b).1.body [b]).1, bytesOf (a.nalType b).2 ++ bytesOf ((a.nalType b).1.body [b]).2.1) := by
    unfold Annexb.step; rw [hs]; simp only; rw [if_neg (by simp [hl]), if_neg hp]
  rw [this]
  simp only
  cases Annexb.steps _ r <;> simp [Res.map]

theorem bigEndian_length (k n : Nat) : (bigEndian k n).length = k := by
  induction k with
  | zero => rfl
  | succ k ih => simp [bigEndian, ih]

theorem length_steps' (k n : Nat) (c : VideoConf) (first : Bool) (p : Nat) (fl : Int) :
    Annexb.steps ⟨c, .size, first, k, p, fl⟩ (bigEndian k n) = .ok (⟨c, .size, first, 0, p * 256 ^ k + n % 256 ^ k, fl⟩, []) := by
  induction k generalizing p with
  | zero => simp [bigEndian, Annexb.steps, Nat.mod_one]
  | succ k ih =>
    rw [bigEndian, Annexb.steps]
    simp only [Annexb.step, ne_eq, Nat.add_eq_zero_iff, Nat.one_ne_zero, and_false, not_false_eq_true, if_true]
    rw [show k + 1 - 1 = k from rfl, ih]
    simp only [Res.map, List.append_nil]
    have : (p * 256 + (UInt8.ofNat (n / 256 ^ k)).toNat) * 256 ^ k + n % 256 ^ k = p * 256 ^ (k + 1) + n % 256 ^ (k + 1) := by
      rw [Nat.pow_succ, Nat.mod_mul, UInt8.toNat_ofNat', Nat.add_mul, Nat.mul_comm (256 ^ k) (n / 256 ^ k % 256),
        Nat.mul_assoc p 256, Nat.mul_comm 256 (256 ^ k)]
      show _ + n / 256 ^ k % 256 * 256 ^ k + _ = _
      omega
    rw [this]

theorem length_steps (k n : Nat) (c : VideoConf) (first : Bool) (p : Nat) (fl : Int) (h : n < 256 ^ k) :
    ∃ m, m = p * 256 ^ k + n ∧ Annexb.steps ⟨c, .size, first, k, p, fl⟩ (bigEndian k n) = .ok (⟨c, .size, first, 0, m, fl⟩, []) :=
  ⟨_, rfl, by rw [length_steps', Nat.mod_eq_of_lt h]⟩

/-- Between NAL units. -/
def between (c : VideoConf) (first : Bool) (fl : Int) : Annexb := ⟨c, .size, first, c.lenSize, 0, fl⟩

/-- The settings of a codec. -/
def conf (hevc : Bool) (lenSize : Nat) (extra : List UInt8) : VideoConf := if hevc then hevcConf lenSize extra else avcConf lenSize extra

theorem isAud_iff (hevc : Bool) (k : Nat) (extra : List UInt8) (b : UInt8) (n : List UInt8) :
    (b &&& (conf hevc k extra).mask = (conf hevc k extra).audType) ↔ delimiter hevc (b :: n) = true := by
  have h1 : ∀ b : Fin 256, (UInt8.ofNat b.val &&& 0x1f = 9) ↔ b.val % 32 = 9 := by decide +kernel
  have h2 : ∀ b : Fin 256, (UInt8.ofNat b.val &&& 0x7e = 70) ↔ b.val / 2 % 64 = 35 := by decide +kernel
  have hb : UInt8.ofNat b.toNat = b := by simp
  have hlt : b.toNat < 256 := b.toNat_lt
  cases hevc
  · have := h1 ⟨b.toNat, hlt⟩
    rw [hb] at this
    simpa [conf, avcConf, delimiter] using this
  · have := h2 ⟨b.toNat, hlt⟩
    rw [hb] at this
    simpa [conf, hevcConf, delimiter] using this

theorem unit_steps (hevc : Bool) (k : Nat) (extra : List UInt8) (first : Bool) (fl : Int) (n : List UInt8) (hn : n ≠ []) (hlt : n.length < 256 ^ k) :
    ∃ fl', (between (conf hevc k extra) first fl).steps (lengthed k n) =
      .ok (between (conf hevc k extra) (first && delimiter hevc n) fl',
        if delimiter hevc n then [] else (if first then [0, 0, 0, 1] else [0, 0, 1]) ++ n) := by
  have hk : (conf hevc k extra).lenSize = k := by unfold conf; split <;> rfl
  unfold lengthed between
  rw [steps_append]
  obtain ⟨m, hm, h1⟩ := length_steps k n.length (conf hevc k extra) first 0 fl hlt
  rw [Nat.zero_mul, Nat.zero_add] at hm
  subst hm
  rw [hk, h1]
  obtain ⟨b, r, rfl⟩ := List.exists_cons_of_ne_nil hn
  simp only
  rw [nal_steps _ b r rfl rfl (by simp)]
  have haud := isAud_iff hevc k extra b r
  unfold Annexb.nalType
  simp only
  by_cases hd : delimiter hevc (b :: r) = true
  · rw [if_pos (haud.mpr hd)]
    have h2 := (body_steps ⟨conf hevc k extra, .skip, first, 0, (b :: r).length, fl⟩ (b :: r) (by simp) (by simp) hn).1
    rw [List.take_of_length_le (Nat.le_refl _)] at h2
    rw [h2]
    refine ⟨fl, ?_⟩
    simp [Annexb.body, Res.map, bytesOf, hd, hk]
  · rw [if_neg (fun h => hd (haud.mp h))]
    cases first with
    | true =>
      simp only [if_true]
      have h2 := (body_steps ⟨conf hevc k extra, .copy, false, 0, (b :: r).length, fl - 4⟩ (b :: r) (by simp) (by simp) hn).1
      rw [List.take_of_length_le (Nat.le_refl _)] at h2
      rw [h2]
      refine ⟨fl - 4 - ((r.length + 1 : Nat) : Int), ?_⟩
      simp [Annexb.body, Res.map, bytesOf, hd, hk]
    | false =>
      simp only [Bool.false_eq_true, if_false]
      have h2 := (body_steps ⟨conf hevc k extra, .copy, false, 0, (b :: r).length, fl - 3⟩ (b :: r) (by simp) (by simp) hn).1
      rw [List.take_of_length_le (Nat.le_refl _)] at h2
      rw [h2]
      refine ⟨fl - 3 - ((r.length + 1 : Nat) : Int), ?_⟩
      simp [Annexb.body, Res.map, bytesOf, hd, hk]

/-- The start codes, when there was a NAL unit before or not. -/
def codes (first : Bool) (us : List (List UInt8)) : List UInt8 := NalSpec.stream (if first then marked us else us.map (0, ·))

theorem codes_cons (first : Bool) (n : List UInt8) (us : List (List UInt8)) :
    codes first (n :: us) = (if first then [0, 0, 0, 1] else [0, 0, 1]) ++ n ++ codes false us := by
  cases first <;> simp [codes, marked, NalSpec.stream, List.replicate]

theorem units_steps (hevc : Bool) (k : Nat) (extra : List UInt8) (ns : List (List UInt8)) (first : Bool) (fl : Int)
    (h : ∀ n ∈ ns, n ≠ [] ∧ n.length < 256 ^ k) :
    ∃ a', (between (conf hevc k extra) first fl).steps (ns.map (lengthed k)).flatten =
      .ok (a', codes first (ns.filter fun n => !delimiter hevc n)) := by
  induction ns generalizing first fl with
  | nil =>
    refine ⟨between (conf hevc k extra) first fl, ?_⟩
    cases first <;> rfl
  | cons n ns ih =>
    rw [List.map_cons, List.flatten_cons, steps_append]
    obtain ⟨fl', h1⟩ := unit_steps hevc k extra first fl n (h n (by simp)).1 (h n (by simp)).2
    rw [h1]
    simp only
    obtain ⟨a', h2⟩ := ih (first && delimiter hevc n) fl' (fun x hx => h x (by simp [hx]))
    rw [h2]
    refine ⟨a', ?_⟩
    by_cases hd : delimiter hevc n = true
    · simp [Res.map, hd]
    · simp [Res.map, hd, codes_cons]

theorem codes_length (hevc : Bool) (k : Nat) (hk : k = 4) (ns : List (List UInt8)) (first : Bool) :
    (codes first (ns.filter fun n => !delimiter hevc n)).length ≤ ((ns.map (lengthed k)).flatten).length := by
  induction ns generalizing first with
  | nil => cases first <;> simp [codes, marked, NalSpec.stream]
  | cons n ns ih =>
    rw [List.map_cons, List.flatten_cons, List.length_append, lengthed, List.length_append, bigEndian_length]
    by_cases hd : delimiter hevc n = true
    · rw [List.filter_cons, if_neg (by simp [hd])]
      have := ih first; omega
    · rw [List.filter_cons, if_pos (by simp [hd]), codes_cons]
      have := ih false
      simp only [List.length_append]
      cases first <;> simp only [if_true, Bool.false_eq_true, if_false, List.length_cons, List.length_nil] <;> omega

/-- A frame that is NAL units with lengths of `k` bytes: it becomes `videoData`, and zeros if the lengths have four bytes, so that the size is
known before. The pieces in which it is read do not matter. -/
theorem video_data (hevc : Bool) (k : Nat) (extra : List UInt8) (align : Bool) (a : Annexb) (ha : a.conf = conf hevc k extra) (o : OFrame)
    (pieces : List (List UInt8)) (l : Bool) (ns : List (List UInt8)) (hns : ns ≠ []) (h : ∀ n ∈ ns, n ≠ [] ∧ n.length < 256 ^ k)
    (hp : pieces.flatten = (ns.map (lengthed k)).flatten) (ho : o.size = pieces.flatten.length) :
    ∃ (a' : Annexb) (x : Atom) (z : Nat), Filt.calls align (.video a) ([.start o] ++ pieces.map .write ++ [.flush l]) = .ok (.video a', x.calls) ∧ a'.conf = a.conf ∧
      x.f.pts = o.pts ∧ x.f.dts = o.dts ∧ x.last = l ∧ x.ws.flatten = videoData hevc extra o.key ns ++ List.replicate z 0 ∧
      (k = 4 → x.ws.flatten.length = (conf hevc k extra).aud.length + (if o.key then extra.length else 0) + o.size) ∧ (k ≠ 4 → z = 0) ∧
      (∀ n, n ≤ 31 → Fine n x.ws) := by
  have hk : (conf hevc k extra).lenSize = k := by unfold conf; split <;> rfl
  have he : (conf hevc k extra).extra = extra := by unfold conf; split <;> rfl
  have haud : (conf hevc k extra).aud = (if hevc then [0, 0, 0, 1, 0x46, 1, 0x50] else [0, 0, 0, 1, 9, 0xf0]) := by unfold conf; split <;> rfl
  have hok : (conf hevc k extra).Ok := by constructor <;> rw [haud] <;> split <;> simp
  have hbeg : Annexb.begun (conf hevc k extra) o.size = between (conf hevc k extra) true o.size := rfl
  obtain ⟨a1, h1⟩ := units_steps hevc k extra ns true o.size h
  rw [← hbeg, ← hp] at h1
  obtain ⟨n, ns', rfl⟩ := List.exists_cons_of_ne_nil hns
  have hsize : k < o.size := by
    have := List.length_pos_iff.mpr (h n (by simp)).1
    rw [ho, hp, List.map_cons, List.flatten_cons, List.length_append, lengthed, List.length_append, bigEndian_length]
    omega
  have hcs : codes true ((n :: ns').filter fun n => !delimiter hevc n) = NalSpec.stream (marked ((n :: ns').filter fun n => !delimiter hevc n)) := rfl
  rcases video_frame align a o pieces l with ⟨_, h2⟩ | ⟨a', x, conv, z, h2, h3, h4⟩
  · rw [ha] at h2
    rcases h2 with h2 | h2 | ⟨a2, conv, h2, h3, h4⟩
    · omega
    · rw [h1] at h2; cases h2
    · rw [h1] at h2
      cases h2
      have := codes_length hevc k (by omega) (n :: ns') true
      rw [← hp, ← ho] at this
      omega
  · rw [ha] at h4
    obtain ⟨a2, h5⟩ := h4.conv
    rw [h1] at h5
    cases h5
    refine ⟨a', x, z, h2, h3, h4.pts, h4.dts, h4.last, ?_, ?_, fun h => h4.none (by rw [hk]; exact h), h4.fine hok⟩
    · rw [h4.flat, haud, he, hcs]
      rfl
    · intro hk4
      have := h4.size (by rw [hk]; exact hk4)
      rw [h4.flat, he]
      simp only [List.length_append, List.length_replicate]
      split <;> (try rw [List.length_nil]) <;> omega

end Verif.Mts
