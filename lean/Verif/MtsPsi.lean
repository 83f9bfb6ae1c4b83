import Verif.MtsCrc
import Verif.TsStart

/-! # What the tables before a segment say -/

namespace Verif.MtsSpec

open Mts (StreamType)

/-- stream_type (ISO/IEC 13818-1, table 2-34; 0xdb is of SAMPLE-AES, 0x81 and 0x82 are of ATSC). -/
def typeOf : StreamType → Nat
  | .hevc => 0x24 | .avc => 0x1b | .zavc => 0xdb | .aac => 0x0f | .mp3 => 0x03 | .dts => 0x82 | .ac3 => 0x81 | .id3 => 0x15

/-- The descriptors: registration "HEVC", the private data "zavc", metadata "ID3 " in the program 15. -/
def descOf : StreamType → List UInt8
  | .hevc => [5, 4] ++ [0x48, 0x45, 0x56, 0x43]
  | .zavc => [15, 4] ++ [0x7a, 0x61, 0x76, 0x63]
  | .id3 => [38, 13, 0xff, 0xff] ++ [0x49, 0x44, 0x33, 0x20] ++ [0xff] ++ [0x49, 0x44, 0x33, 0x20] ++ [0, 15]
  | _ => []

/-- The descriptor of the program: a pointer to metadata "ID3 ". -/
def id3Pointer : List UInt8 := [37, 15, 0xff, 0xff] ++ [0x49, 0x44, 0x33, 0x20] ++ [0xff] ++ [0x49, 0x44, 0x33, 0x20] ++ [0, 31, 0, 1]

/-- The program map table of streams with pids. -/
def pmt (pcr : Nat) (ss : List (StreamType × Nat)) : TsSpec.Pmt :=
  { pcr := pcr, info := id3Pointer, streams := ss.map fun s => (typeOf s.1, s.2, descOf s.1) }

/-- The ids of the streams of a kind in their ranges (table 2-22). -/
def sidOk (t : StreamType) (sid : Nat) : Prop :=
  match t with
  | .hevc | .avc | .zavc => 0xe0 ≤ sid ∧ sid < 0xf0
  | .aac | .mp3 | .dts | .ac3 => 0xc0 ≤ sid ∧ sid < 0xe0
  | .id3 => sid = 0xbd

end Verif.MtsSpec

namespace Verif.Mts

open MtsSpec (typeOf descOf id3Pointer pmt sidOk tablePacket)
open TsSpec (streamData)

theorem entry_fin (t : StreamType) (p : Fin 1024) :
    setElementaryPid t.template (256 + p.val) =
      [UInt8.ofNat (typeOf t)] ++ TsSpec.be16 (0xe000 + (256 + p.val)) ++ TsSpec.be16 (0xf000 + (descOf t).length) ++ descOf t := by
  have h1 : ((0xe0 : UInt8) &&& 0xe0) ||| UInt8.ofNat ((256 + p.val) / 256 % 32) = UInt8.ofNat ((0xe000 + (256 + p.val)) / 256) := by
    have : ∀ q : Fin 4, ((0xe0 : UInt8) &&& 0xe0) ||| UInt8.ofNat ((1 + q.val) % 32) = UInt8.ofNat (0xe0 + 1 + q.val) := by decide
    have hq := this ⟨p.val / 256, by have := p.isLt; omega⟩
    simp only at hq
    rw [show (256 + p.val) / 256 = 1 + p.val / 256 by omega, hq]
    congr 1; omega
  have h2 : UInt8.ofNat (256 + p.val) = UInt8.ofNat ((0xe000 + (256 + p.val)) % 256) := by
    apply UInt8.toNat.inj
    rw [UInt8.toNat_ofNat', UInt8.toNat_ofNat']
    omega
  have key : ∀ (a c d : UInt8) (r : List UInt8), setElementaryPid (a :: 0xe0 :: c :: r) (256 + p.val) =
      [a] ++ TsSpec.be16 (0xe000 + (256 + p.val)) ++ r := by
    intro a c d r
    show a :: (((0xe0 : UInt8) &&& 0xe0) ||| UInt8.ofNat ((256 + p.val) / 256 % 32)) :: UInt8.ofNat (256 + p.val) :: r = _
    rw [h1, h2]; rfl
  cases t <;> exact key _ 0 0 _

/-- What the state of the tables is after streams with infos. -/
structure TInv (index : Nat) (s : Tables) (done : List (StreamType × Nat)) (v a : Nat) : Prop where
  pat : s.pat = (initTables index).pat
  pmt : s.pmt = setCounter pmtTemplate index ++ streamData (done.map fun x => (typeOf x.1, x.2, descOf x.1))
  size : s.pmt.length < 184
  vsid : s.vsid = 0xe0 + v
  asid : s.asid = 0xc0 + a
  pid : 256 ≤ s.pid
  low : s.pid ≤ 258 + done.length

theorem template_length (t : StreamType) : t.template.length = 5 + (descOf t).length := by cases t <;> rfl

theorem setElementaryPid_length (x : List UInt8) (p : Nat) : (setElementaryPid x p).length = x.length := by
  unfold setElementaryPid
  rw [List.length_set, List.length_modify]

theorem header_length (index : Nat) : (setCounter pmtTemplate index).length = 34 := by
  unfold setCounter
  rw [List.length_modify]; rfl

theorem TInv.few {index : Nat} {s : Tables} {done : List (StreamType × Nat)} {v a : Nat} (h : TInv index s done v a) : done.length ≤ 29 := by
  have h1 := h.size
  rw [h.pmt, List.length_append, header_length] at h1
  have : ∀ l : List (StreamType × Nat), 5 * l.length ≤ (streamData (l.map fun x => (typeOf x.1, x.2, descOf x.1))).length := by
    intro l
    induction l with
    | nil => exact Nat.zero_le _
    | cons x l ih =>
      simp only [streamData, List.map_cons, List.flatMap_cons, List.length_append, TsSpec.be16, List.length_cons, List.length_nil] at ih ⊢
      omega
  have := this done
  omega

/-- The numbers of streams of video and of audio. -/
def videos (ts : List StreamType) : Nat := ts.countP fun t => t.media = .video
def audios (ts : List StreamType) : Nat := ts.countP fun t => t.media = .audio

/-- The pid of a stream. -/
def nextPid (m : Media) (pid : Nat) : Nat :=
  match m with | .audio => max pid 0x101 | .id3 => max pid 0x102 | .video => pid

/-- The id of a stream. -/
def nextSid (m : Media) (s : Tables) : Nat :=
  match m with | .video => s.vsid | .audio => s.asid | .id3 => 0xbd

/-- One stream. -/
theorem add_inv {index : Nat} {s s' : Tables} {done : List (StreamType × Nat)} {v a : Nat} {t : StreamType} {i : Info} (h : TInv index s done v a)
    (he : s.add t = .ok (s', i)) :
    i = ⟨t.media, nextPid t.media s.pid, nextSid t.media s % 256, decide (s.pid = 0x100)⟩ ∧ s'.pid = i.pid + 1 ∧
      s'.pmt.length = s.pmt.length + t.template.length ∧ TInv index s' (done ++ [(t, i.pid)]) (v + videos [t]) (a + audios [t]) := by
  have hfew := h.few
  have hlow := h.low
  have hpid := h.pid
  unfold Tables.add at he
  simp only at he
  split at he
  · cases he
  rename_i hsz
  have hp : s.pid ≤ nextPid t.media s.pid ∧ nextPid t.media s.pid ≤ max s.pid 258 := by
    unfold nextPid
    split <;> omega
  have he' := Res.ok.inj he
  have e1 := (Prod.mk.inj he').1
  have e2 := (Prod.mk.inj he').2
  subst e2
  refine ⟨rfl, by rw [← e1], by rw [← e1]; simp only; rw [List.length_append, setElementaryPid_length], ?_⟩
  rw [← e1]
  refine ⟨h.pat, ?_, ?_, ?_, ?_, ?_, ?_⟩
  · show s.pmt ++ setElementaryPid t.template (nextPid t.media s.pid) = _
    have := entry_fin t ⟨nextPid t.media s.pid - 256, by omega⟩
    simp only at this
    rw [show 256 + (nextPid t.media s.pid - 256) = nextPid t.media s.pid by omega] at this
    rw [this, h.pmt, List.map_append, streamData, streamData, List.flatMap_append, List.append_assoc]
    congr 2
    rw [List.map_cons, List.map_nil, List.flatMap_cons, List.flatMap_nil, List.append_nil]
    rfl
  · simp only
    rw [List.length_append, setElementaryPid_length]
    omega
  · simp only [h.vsid, videos, List.countP_cons, List.countP_nil]
    by_cases hm : t.media = .video <;> simp [hm] <;> omega
  · simp only [h.asid, audios, List.countP_cons, List.countP_nil]
    by_cases hm : t.media = .audio <;> simp [hm] <;> omega
  · show 256 ≤ nextPid t.media s.pid + 1
    omega
  · show nextPid t.media s.pid + 1 ≤ _
    rw [List.length_append]
    simp only [List.length_cons, List.length_nil]
    omega

theorem videos_cons (t : StreamType) (ts : List StreamType) : videos (t :: ts) = videos [t] + videos ts := by
  simp only [videos, List.countP_cons, List.countP_nil]; omega

theorem audios_cons (t : StreamType) (ts : List StreamType) : audios (t :: ts) = audios [t] + audios ts := by
  simp only [audios, List.countP_cons, List.countP_nil]; omega

theorem sid_ok {index : Nat} {s : Tables} {done : List (StreamType × Nat)} {v a : Nat} (h : TInv index s done v a) (t : StreamType)
    (hv : v + videos [t] ≤ 16) (ha : a + audios [t] ≤ 32) : sidOk t (nextSid t.media s % 256) := by
  cases t <;> simp only [nextSid, StreamType.media, sidOk, h.vsid, h.asid, videos, audios, List.countP_cons, List.countP_nil, decide_true,
    decide_false, if_true, reduceCtorEq, if_false] at hv ha ⊢ <;> omega

/-- The streams. -/
theorem adds_inv {index : Nat} (ts : List StreamType) {s s' : Tables} {done : List (StreamType × Nat)} {v a : Nat} {is : List Info}
    (h : TInv index s done v a) (he : s.adds ts = .ok (s', is)) :
    TInv index s' (done ++ ts.zip (is.map Info.pid)) (v + videos ts) (a + audios ts) ∧ is.map Info.media = ts.map StreamType.media ∧
      (∀ i ∈ is, s.pid ≤ i.pid ∧ i.pid < s'.pid) ∧ (is.map Info.pid).Pairwise (· < ·) ∧
      (v + videos ts ≤ 16 → a + audios ts ≤ 32 → ∀ x ∈ ts.zip is, sidOk x.1 x.2.sid) ∧
      (∀ i ∈ is.drop 1, i.pcr = false) ∧ (∀ i, is.head? = some i → i.pcr = decide (s.pid = 0x100) ∧ i.pid = nextPid i.media s.pid) := by
  induction ts generalizing s done v a is with
  | nil =>
    have he' := Res.ok.inj he
    have e1 := (Prod.mk.inj he').1
    have e2 := (Prod.mk.inj he').2
    subst e1 e2
    refine ⟨by simpa [videos, audios] using h, rfl, by simp, by simp, by simp, by simp, by simp⟩
  | cons t ts ih =>
    unfold Tables.adds at he
    split at he
    · rename_i s1 i hadd
      obtain ⟨ei, ep, _, hinv⟩ := add_inv h hadd
      obtain ⟨⟨s2, is2⟩, hr, e2⟩ : ∃ r, s1.adds ts = .ok r ∧ (s', is) = (r.1, i :: r.2) := by
        cases hc : s1.adds ts with
        | ok r => rw [hc] at he; exact ⟨r, rfl, (Res.ok.inj he).symm⟩
        | err => rw [hc] at he; cases he
        | ub => rw [hc] at he; cases he
      obtain ⟨rfl, rfl⟩ := Prod.mk.inj e2
      obtain ⟨h1, h2, h3, h4, h5, h6, h7⟩ := ih hinv hr
      have hpid : s.pid ≤ i.pid := by
        rw [ei]
        show s.pid ≤ nextPid t.media s.pid
        unfold nextPid
        split <;> omega
      have h256 := h.pid
      have hlast : s1.pid ≤ s'.pid := by
        have : ∀ (ts : List StreamType) (x y : Tables) (js : List Info), x.adds ts = .ok (y, js) → x.pid ≤ y.pid := by
          intro ts
          induction ts with
          | nil => intro x y js hx; rw [(Prod.mk.inj (Res.ok.inj hx)).1]; exact Nat.le_refl _
          | cons t ts ih =>
            intro x y js hx
            unfold Tables.adds at hx
            split at hx
            · rename_i x1 j hj
              have : x.pid ≤ x1.pid := by
                unfold Tables.add at hj
                simp only at hj
                split at hj
                · cases hj
                · have e1 := (Prod.mk.inj (Res.ok.inj hj)).1
                  rw [← e1]
                  show x.pid ≤ nextPid t.media x.pid + 1
                  unfold nextPid
                  split <;> omega
              cases hc : x1.adds ts with
              | ok r =>
                rw [hc] at hx
                have := ih x1 r.1 r.2 hc
                have e1 := (Prod.mk.inj (Res.ok.inj hx)).1
                rw [← e1]
                omega
              | err => rw [hc] at hx; cases hx
              | ub => rw [hc] at hx; cases hx
            · cases hx
            · cases hx
        exact this ts _ _ _ hr
      refine ⟨?_, ?_, ?_, ?_, ?_, ?_, ?_⟩
      · rw [List.map_cons, List.zip_cons_cons, videos_cons, audios_cons, ← Nat.add_assoc, ← Nat.add_assoc]
        rw [List.append_assoc] at h1
        exact h1
      · rw [List.map_cons, List.map_cons, h2, ei]
      · intro j hj
        rcases List.mem_cons.mp hj with rfl | hj
        · exact ⟨hpid, by omega⟩
        · have := h3 j hj
          exact ⟨by omega, this.2⟩
      · rw [List.map_cons, List.pairwise_cons]
        refine ⟨?_, h4⟩
        intro p hp
        obtain ⟨j, hj, rfl⟩ := List.mem_map.mp hp
        have := (h3 j hj).1
        omega
      · intro hv ha
        rw [videos_cons] at hv
        rw [audios_cons] at ha
        intro x hx
        rw [List.zip_cons_cons] at hx
        rcases List.mem_cons.mp hx with rfl | hx
        · simp only
          rw [ei]
          exact sid_ok h t (by omega) (by omega)
        · exact h5 (by omega) (by omega) x hx
      · intro j hj
        simp only [List.drop_succ_cons, List.drop_zero] at hj
        cases is2 with
        | nil => simp at hj
        | cons k is2 =>
          rcases List.mem_cons.mp hj with rfl | hj
          · rw [(h7 j rfl).1]
            exact decide_eq_false (by omega)
          · exact h6 j hj
      · intro j hj
        simp only [List.head?_cons, Option.some.injEq] at hj
        rw [← hj, ei]
        exact ⟨rfl, rfl⟩
    · cases he
    · cases he

/-- The streams are taken if their entries fit. -/
theorem adds_ok {index : Nat} (ts : List StreamType) {s : Tables} {done : List (StreamType × Nat)} {v a : Nat} (h : TInv index s done v a)
    (hs : s.pmt.length + (ts.map fun t => 5 + (descOf t).length).sum < 184) : ∃ r, s.adds ts = .ok r := by
  induction ts generalizing s done v a with
  | nil => exact ⟨_, rfl⟩
  | cons t ts ih =>
    rw [List.map_cons, List.sum_cons] at hs
    have hne : ∃ s1 i, s.add t = .ok (s1, i) := by
      unfold Tables.add
      simp only
      rw [if_neg (by rw [template_length]; omega)]
      exact ⟨_, _, rfl⟩
    obtain ⟨s1, i, h1⟩ := hne
    obtain ⟨_, _, hl, hinv⟩ := add_inv h h1
    obtain ⟨r, hr⟩ := ih hinv (by rw [hl, template_length]; omega)
    exact ⟨_, by unfold Tables.adds; rw [h1]; simp only; rw [hr]; rfl⟩

/-- The streams are not taken if their entries do not fit. -/
theorem adds_err {index : Nat} (ts : List StreamType) {s : Tables} {done : List (StreamType × Nat)} {v a : Nat} (h : TInv index s done v a)
    (hs : ¬ s.pmt.length + (ts.map fun t => 5 + (descOf t).length).sum < 184) : s.adds ts = .err := by
  induction ts generalizing s done v a with
  | nil => exact absurd (by simpa using h.size) hs
  | cons t ts ih =>
    rw [List.map_cons, List.sum_cons] at hs
    unfold Tables.adds
    cases hc : s.add t with
    | ub =>
      unfold Tables.add at hc
      simp only at hc
      split at hc <;> cases hc
    | err => rfl
    | ok r =>
      obtain ⟨s1, i⟩ := r
      obtain ⟨_, _, hl, hinv⟩ := add_inv h hc
      simp only
      rw [ih hinv (by rw [hl, template_length]; omega)]
      rfl

theorem init_tinv (index : Nat) : TInv index (initTables index) [] 0 0 where
  pat := rfl
  pmt := by rw [List.map_nil]; exact (List.append_nil _).symm
  size := by show (setCounter pmtTemplate index).length < 184; rw [header_length]; omega
  vsid := rfl
  asid := rfl
  pid := Nat.le_refl _
  low := by show 256 ≤ 258 + _; omega

theorem counter_pmt (index : Nat) : setCounter pmtTemplate index =
    [0x47, 0x4f, 0xff, UInt8.ofNat (16 + index % 16), 0, 2, 0xb0, 0, 0, 1, 0xc1, 0, 0, 0xe1, 0, 0xf0, 0x11] ++ id3Pointer := by
  have : ∀ k : Fin 16, setCounter pmtTemplate k.val =
      [0x47, 0x4f, 0xff, UInt8.ofNat (16 + k.val), 0, 2, 0xb0, 0, 0, 1, 0xc1, 0, 0, 0xe1, 0, 0xf0, 0x11] ++ id3Pointer := by decide +kernel
  have h := this ⟨index % 16, by omega⟩
  simp only at h
  rw [← h]
  unfold setCounter
  rw [Nat.mod_mod]

theorem pat_packet (index : Nat) : (initTables index).pat = (tablePacket 0 (index % 16) 0 (TsSpec.patData [(1, 0xfff)])).bytes := by
  have : ∀ k : Fin 16, (initTables k.val).pat = (tablePacket 0 k.val 0 (TsSpec.patData [(1, 0xfff)])).bytes := by decide +kernel
  have h := this ⟨index % 16, by omega⟩
  simp only at h
  rw [← h]
  unfold initTables setCounter
  rw [Nat.mod_mod]

theorem crc_bytes (c : BitVec 32) :
    [UInt8.ofNat (c >>> 24).toNat, UInt8.ofNat (c >>> 16).toNat, UInt8.ofNat (c >>> 8).toNat, UInt8.ofNat c.toNat] = MtsSpec.bigEndian 4 c.toNat := by
  simp only [MtsSpec.bigEndian, BitVec.toNat_ushiftRight, Nat.shiftRight_eq_div_pow]
  simp

theorem pmt_data (pcr : Nat) (l : List (StreamType × Nat)) : (pmt pcr l).data =
    TsSpec.be16 (0xe000 + pcr) ++ [0xf0, 0x11] ++ id3Pointer ++ streamData (l.map fun x => (typeOf x.1, x.2, descOf x.1)) := by
  have : TsSpec.be16 (0xf000 + id3Pointer.length) = [0xf0, 0x11] := by decide
  rw [← this]
  unfold pmt TsSpec.Pmt.data
  simp only

theorem pmt_packet {index : Nat} {s : Tables} {done : List (StreamType × Nat)} {v a : Nat} (h : TInv index s done v a) :
    s.finalize = [(tablePacket 0 (index % 16) 0 (TsSpec.patData [(1, 0xfff)])).bytes,
      (tablePacket 0xfff (index % 16) 2 (pmt 0x100 done).data).bytes] := by
  have hsz := h.size
  generalize hD : streamData (done.map fun x => (typeOf x.1, x.2, descOf x.1)) = D
  have hpm := h.pmt
  rw [hD, counter_pmt] at hpm
  have hl : s.pmt.length = 34 + D.length := by
    rw [hpm]
    simp only [List.length_append, List.length_cons, List.length_nil, id3Pointer]
  have hd : (pmt 0x100 done).data = [0xe1, 0, 0xf0, 0x11] ++ id3Pointer ++ D := by
    rw [pmt_data, hD]; rfl
  have hdl : (pmt 0x100 done).data.length = 21 + D.length := by
    rw [hd]
    simp only [List.length_append, List.length_cons, List.length_nil, id3Pointer]
  have hn1 : ((0xb0 : UInt8) &&& 0xfc) ||| UInt8.ofNat ((30 + D.length) / 256 % 4) = UInt8.ofNat ((0xb000 + (5 + (21 + D.length) + 4)) / 256) := by
    rw [show (30 + D.length) / 256 % 4 = 0 by omega, show (0xb000 + (5 + (21 + D.length) + 4)) / 256 = 0xb0 by omega]
    rfl
  have hn2 : UInt8.ofNat (30 + D.length) = UInt8.ofNat ((0xb000 + (5 + (21 + D.length) + 4)) % 256) := by
    congr 1; omega
  have hset : setSectionLength s.pmt (s.pmt.length - 8 + 4) =
      [0x47, 0x4f, 0xff, UInt8.ofNat (16 + index % 16), 0] ++ ([2] ++ TsSpec.be16 (0xb000 + (5 + (21 + D.length) + 4)) ++ [0, 1, 0xc1, 0, 0] ++
        (pmt 0x100 done).data) := by
    rw [hl, show 34 + D.length - 8 + 4 = 30 + D.length by omega, hpm, hd]
    show [0x47, 0x4f, 0xff, UInt8.ofNat (16 + index % 16), 0, 2, ((0xb0 : UInt8) &&& 0xfc) ||| UInt8.ofNat ((30 + D.length) / 256 % 4),
      UInt8.ofNat (30 + D.length), 0, 1, 0xc1, 0, 0, 0xe1, 0, 0xf0, 0x11] ++ id3Pointer ++ D = _
    rw [hn1, hn2]
    rfl
  unfold Tables.finalize
  simp only
  rw [h.pat, pat_packet, hset, tableCrc_eq, crc_bytes]
  congr 2
  generalize hb : ([2] ++ TsSpec.be16 (0xb000 + (5 + (21 + D.length) + 4)) ++ [0, 1, 0xc1, 0, 0] : List UInt8) = B
  have hB : B.length = 8 := by rw [← hb]; rfl
  have hdrop : ([0x47, 0x4f, 0xff, UInt8.ofNat (16 + index % 16), 0] ++ (B ++ (pmt 0x100 done).data)).drop 5 = B ++ (pmt 0x100 done).data :=
    List.drop_left' rfl
  rw [hdrop]
  unfold tablePacket
  simp only
  rw [hdl, hb]
  generalize hc : MtsSpec.bigEndian 4 (MtsSpec.crc (B ++ (pmt 0x100 done).data)).toNat = C
  have hC : C.length = 4 := by rw [← hc]; rfl
  have hpay : TsSpec.Section.bytes { table := 2, crc := C, stuffing := List.replicate (171 - (21 + D.length)) 0xff } (pmt 0x100 done).data =
      0 :: (B ++ (pmt 0x100 done).data ++ C ++ List.replicate (171 - (21 + D.length)) 0xff) := by
    unfold TsSpec.Section.bytes
    rw [hdl, ← hb]
    simp only [List.append_assoc, List.nil_append, List.cons_append, List.length_nil]
    rfl
  rw [hpay]
  unfold TsSpec.Packet.bytes TsSpec.Packet.field
  simp only [reduceCtorEq, if_false, if_true, Option.isSome_none, Bool.false_eq_true, List.append_nil, Nat.zero_add]
  have hlen : ([0x47, 0x4f, 0xff, UInt8.ofNat (16 + index % 16), 0] ++ (B ++ (pmt 0x100 done).data) ++ C).length = 38 + D.length := by
    simp only [List.length_append, List.length_cons, List.length_nil, hB, hC, hdl]
    omega
  rw [hlen, show 188 - (38 + D.length) = 171 - (21 + D.length) by omega]
  simp only [List.append_assoc, List.cons_append, List.nil_append]
  rfl

theorem tablePacket_ok (pid cc : Nat) (table : UInt8) (data : List UInt8) (hp : pid < 8192) (hc : cc < 16) (hd : data.length ≤ 171) :
    (tablePacket pid cc table data).Ok ∧ (tablePacket pid cc table data).bytes.length = 188 := by
  have h : (tablePacket pid cc table data).bytes.length = 188 := by
    unfold tablePacket TsSpec.Packet.bytes TsSpec.Packet.field TsSpec.Section.bytes
    simp only [List.length_append, List.length_cons, List.length_nil, TsSpec.be16, MtsSpec.bigEndian, List.length_replicate]
    omega
  exact ⟨⟨hp, hc, h, fun f t h => by cases h⟩, h⟩

/-- **C87.** The tables before a segment: a program association table with the program 1 on pid 0xfff, and a program map table that has each stream
with its pid, type and descriptors, each in a packet, with the CRC of the standard and the number of the segment as counter. The pids differ, are
not those of the tables or of null packets, and go to the streams; a stream has an id of its kind. If the entries of the streams have up to 149
bytes then there are tables, else the request fails. -/
theorem tables_say (index : Nat) (ts : List StreamType) :
    (if (ts.map fun t => 5 + (descOf t).length).sum < 150 then
      ∃ (ps : List (List UInt8)) (is : List Info), tables index ts = .ok (ps, is) ∧
        is.map Info.media = ts.map StreamType.media ∧
        (is.map Info.pid).Nodup ∧ (∀ i ∈ is, 0x100 ≤ i.pid ∧ i.pid < 0xfff) ∧
        (videos ts ≤ 16 → audios ts ≤ 32 → ∀ x ∈ ts.zip is, sidOk x.1 x.2.sid) ∧
        (tablePacket 0 (index % 16) 0 (TsSpec.patData [(1, 0xfff)])).Ok ∧
        (tablePacket 0xfff (index % 16) 2 (pmt 0x100 (ts.zip (is.map Info.pid))).data).Ok ∧
        ps = [(tablePacket 0 (index % 16) 0 (TsSpec.patData [(1, 0xfff)])).bytes,
          (tablePacket 0xfff (index % 16) 2 (pmt 0x100 (ts.zip (is.map Info.pid))).data).bytes]
    else tables index ts = .err) := by
  have h0 := init_tinv index
  have hl0 : (initTables index).pmt.length = 34 := header_length index
  split
  · rename_i hs
    obtain ⟨⟨s, is⟩, hr⟩ := adds_ok ts h0 (by rw [hl0]; omega)
    obtain ⟨h1, h2, h3, h4, h5, h6, h7⟩ := adds_inv ts h0 hr
    rw [List.nil_append, Nat.zero_add, Nat.zero_add] at h1
    rw [Nat.zero_add, Nat.zero_add] at h5
    have hlow := h1.low
    have hfew := h1.few
    refine ⟨s.finalize, is, ?_, h2, ?_, ?_, h5, ?_, ?_, pmt_packet h1⟩
    · unfold tables
      rw [hr]
      rfl
    · exact h4.imp fun h => Nat.ne_of_lt h
    · intro i hi
      have := h3 i hi
      have h256 : (initTables index).pid = 256 := rfl
      omega
    · exact (tablePacket_ok 0 (index % 16) 0 _ (by omega) (by omega) (by show 4 ≤ 171; omega)).1
    · refine (tablePacket_ok 0xfff (index % 16) 2 _ (by omega) (by omega) ?_).1
      have hsz := h1.size
      rw [h1.pmt, List.length_append, header_length] at hsz
      rw [pmt_data]
      simp only [List.length_append, List.length_cons, List.length_nil, TsSpec.be16, id3Pointer]
      omega
  · rename_i hs
    unfold tables
    rw [adds_err ts h0 (by rw [hl0]; omega)]
    rfl

/-- **C88** for streams of which the first is video: the pid of the PCR in the program map table is that of the stream with the PCR. -/
theorem pcr_pid_partial (index : Nat) (ts : List StreamType) (t : StreamType) (hh : ts.head? = some t) (hv : t.media = .video)
    {ps : List (List UInt8)} {is : List Info} (h : tables index ts = .ok (ps, is)) : ∀ i ∈ is, i.pcr = true ↔ i.pid = 0x100 := by
  unfold tables at h
  cases hr : (initTables index).adds ts with
  | err => rw [hr] at h; cases h
  | ub => rw [hr] at h; cases h
  | ok r =>
    obtain ⟨s, js⟩ := r
    rw [hr] at h
    have e := (Prod.mk.inj (Res.ok.inj h)).2
    simp only at e
    subst e
    obtain ⟨-, h2, h3, h4, -, h6, h7⟩ := adds_inv ts (init_tinv index) hr
    have h256 : (initTables index).pid = 256 := rfl
    cases js with
    | nil => simp
    | cons j js =>
      obtain ⟨ts', rfl⟩ : ∃ ts', ts = t :: ts' := by
        cases ts with
        | nil => cases hh
        | cons a as => exact ⟨as, by rw [Option.some.inj hh]⟩
      have hm : j.media = .video := by
        rw [List.map_cons, List.map_cons] at h2
        rw [(List.cons.inj h2).1, hv]
      obtain ⟨e1, e2⟩ := h7 j rfl
      rw [hm] at e2
      have e2' : j.pid = 256 := e2
      rw [List.map_cons, List.pairwise_cons] at h4
      intro i hi
      rcases List.mem_cons.mp hi with rfl | hi
      · rw [e1, h256]
        exact ⟨fun _ => e2', fun _ => rfl⟩
      · have a := h6 i hi
        have b := h4.1 i.pid (List.mem_map_of_mem hi)
        rw [a]
        refine ⟨fun h => (by cases h), fun h => ?_⟩
        omega

/-- The tables before a segment as the receiver of a transport stream (C77) reads them: one program, with the types and pids of the streams. -/
theorem tables_are_read (H : Ts.Handler) (memLimit : Nat) (calls : List (List (List UInt8))) (index : Nat) (ts : List StreamType) (hne : ts ≠ [])
    {ps : List (List UInt8)} {is : List Info} (h : tables index ts = .ok (ps, is)) (hcalls : calls.flatten.flatten = ps.flatten) :
    ∃ s, (Ts.St.init memLimit).session H calls = .ok s ∧ (∀ f, s.fail = some f → f = .memory ∨ f = .handler) ∧
      (s.fail = none → s.buf = none ∧
        s.log = [.pat [(1, 0xfff)], .pmt 1 ((ts.zip (is.map Info.pid)).map fun x => (typeOf x.1, x.2, descOf x.1))]) := by
  have hs := tables_say index ts
  split at hs
  · rename_i hsum
    obtain ⟨ps', is', h1, h2, -, h4, -, h6, h7, h8⟩ := hs
    rw [h1] at h
    obtain ⟨rfl, rfl⟩ := Prod.mk.inj (Res.ok.inj h)
    generalize hl : ts.zip (is'.map Info.pid) = l at h7 h8 ⊢
    have hlm : ∀ x ∈ l, x.2 < 4095 := by
      intro x hx
      rw [← hl] at hx
      have := (List.of_mem_zip hx).2
      obtain ⟨i, hi, e⟩ := List.mem_map.mp this
      have := (h4 i hi).2
      omega
    have hlne : l ≠ [] := by
      rw [← hl]
      cases ts with
      | nil => exact absurd rfl hne
      | cons t ts =>
        cases is' with
        | nil => simp at h2
        | cons i is => simp
    have hdl : (pmt 0x100 l).data.length ≤ 171 := by
      have := h7.size
      unfold tablePacket TsSpec.Packet.bytes TsSpec.Packet.field TsSpec.Section.bytes at this
      simp only [List.length_append, List.length_cons, List.length_nil, TsSpec.be16, MtsSpec.bigEndian, List.length_replicate] at this
      omega
    have brings : ∀ (pid : Nat) (table : UInt8) (data : List UInt8), (tablePacket pid (index % 16) table data).Ok →
        ∃ sect : TsSpec.Section, (data.length ≤ 171 → sect.Ok data) ∧
          TsSpec.Brings pid (sect.bytes data) (sect.size data) [tablePacket pid (index % 16) table data] := by
      intro pid table data hok
      refine ⟨{ table := table,
                crc := MtsSpec.bigEndian 4 (MtsSpec.crc ([table] ++ TsSpec.be16 (0xb000 + (5 + data.length + 4)) ++ [0, 1, 0xc1, 0, 0] ++ data)).toNat,
                stuffing := List.replicate (171 - data.length) 0xff }, fun hd => ⟨by simp, rfl, rfl, by omega⟩, ?_⟩
      refine ⟨?_, ⟨_, [], rfl, rfl, by simp⟩, ?_, ?_⟩
      · intro q hq
        rw [List.mem_singleton] at hq
        subst hq
        exact ⟨hok, rfl⟩
      · rw [List.map_cons, List.map_nil, List.flatten_cons, List.flatten_nil, List.append_nil]
        rfl
      · simp only [List.dropLast_singleton, List.map_nil, List.flatten_nil, List.length_nil, TsSpec.Section.size]
        omega
    obtain ⟨s1, o1, b1⟩ := brings 0 0 (TsSpec.patData [(1, 0xfff)]) h6
    obtain ⟨s2, o2, b2⟩ := brings 0xfff 2 (pmt 0x100 l).data h7
    obtain ⟨s, c1, c2, c3⟩ := Ts.tables_are_read_as_sent H memLimit calls s1 []
      [⟨1, 0xfff, pmt 0x100 l, s2, [tablePacket 0xfff (index % 16) 2 (pmt 0x100 l).data]⟩] [tablePacket 0 (index % 16) 0 (TsSpec.patData [(1, 0xfff)])]
      (by simp) (by
        intro p hp
        rw [List.mem_singleton] at hp
        subst hp
        refine ⟨by simp, by simp, o2 hdl, ⟨by show 256 < 8192; omega, ?_⟩, ?_, b2⟩
        · intro e he
          obtain ⟨x, hx, rfl⟩ := List.mem_map.mp he
          have := hlm x hx
          refine ⟨?_, by show x.2 < 8192; omega⟩
          show typeOf x.1 < 256
          cases x.1 <;> decide
        · intro e
          exact hlne (List.map_eq_nil_iff.mp e))
      (by simp) ⟨by simp, trivial⟩ (o1 (by show 4 ≤ 171; omega)) b1 (by rw [hcalls, h8]; simp [Ts.bytesOf])
    exact ⟨s, c1, c2, fun hf => ⟨(c3 hf).1, (c3 hf).2.2.2⟩⟩
  · rw [hs] at h
    cases h

end Verif.Mts
