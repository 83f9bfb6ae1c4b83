import Verif.M3u8Size
import Verif.M3u8Props

/-! # Media playlists: the buffer has room for the playlist (C107) -/

namespace Verif.M3u8

open Verif.Sub (str padded digits)
open Verif.M3u8Spec
open Verif.PName (Bytes Name dec write sepSelector sepSelectorSize)
open Verif.SegmentInfo (PIter pinit mget mhas gapRoom Its Sorted noBitrate allGap NoBitrates Periods Written)

/-! ## Lengths -/

def sz (ls : List Bytes) : Nat := (unlines ls).length

theorem sz_nil : sz [] = 0 := rfl
theorem sz_cons (l : Bytes) (ls : List Bytes) : sz (l :: ls) = l.length + 1 + sz ls := by simp [sz, unlines]; omega
theorem sz_append (a b : List Bytes) : sz (a ++ b) = sz a + sz b := by simp [sz, unlines]

theorem printLen_pos (n : Nat) : 1 ≤ printLen n := by
  rw [printLen]; split <;> omega

theorem printLen_mono : ∀ (b a : Nat), a ≤ b → printLen a ≤ printLen b := by
  intro b
  induction b using Nat.strongRecOn with
  | _ b ih =>
    intro a h
    rw [printLen]
    split
    · exact printLen_pos b
    · rw [printLen.eq_1 b, if_neg (by omega)]
      have := ih (b / 10) (by omega) (a / 10) (by omega)
      omega

theorem digits_print : ∀ (k n : Nat), (digits k n).length ≤ printLen n
  | 0, n => by simp [digits]
  | k + 1, n => by
    rw [digits, printLen]
    split
    · simp
    · rw [List.length_append]; have := digits_print k (n / 10); simp; omega

theorem dec_len (n : Nat) : (dec n).length ≤ 10 := Sub.digits_len _ _

theorem dec_print {n : Nat} (h : n < 2 ^ 32) : (dec n).length ≤ printLen n := by
  unfold dec; rw [Nat.mod_eq_of_lt h]; exact digits_print _ _

theorem secs_len (v : Nat) : (secs v).length ≤ 14 := by
  unfold secs
  rw [List.length_append, List.length_cons, Sub.padded_three _ (Nat.mod_lt _ (by decide))]
  have := dec_len (v / 1000); omega

/-! ## Parts -/

theorem sfx (c : Chan) (f : Conf) : suffixLen c f = (sepSelector c.id c.types).length + f.cont.ext.length + 1 := rfl

theorem sz_parts (c : Chan) (f : Conf) (milli idx : Nat) : ∀ (ds : List Nat) (t s p : Nat), sz (partsLoop c f.cont.ext milli idx t s p ds) ≤
    ((str "#EXT-X-PART:DURATION=%uD.%03uD").length + int32 + (str ".000").length + (str ",URI=\"%V-%uD-%uD").length + (str "part").length + 2 * int32 +
      (suffixLen c f - 1) + (str "\"\n").length) * ds.length + (ds.map flagSize).sum
  | [], _, _, _ => by simp [partsLoop, sz_nil]
  | d :: ds, t, s, p => by
    have hu : ∀ p, (partUri c f.cont.ext idx p).length ≤ 36 + (sepSelector c.id c.types).length + f.cont.ext.length := by
      intro p
      unfold partUri
      simp only [write, List.length_append, List.length_cons, List.length_nil]
      have := dec_len (idx + 1)
      have := dec_len (p + 1)
      have k1 : (str ",URI=\"").length = 6 := by decide +kernel
      have k2 : (str "part").length = 4 := by decide +kernel
      omega
    have k1 : (str "#EXT-X-PART:DURATION=%uD.%03uD").length = 30 := by decide +kernel
    have k2 : (str ".000").length = 4 := by decide +kernel
    have k3 : (str ",URI=\"%V-%uD-%uD").length = 16 := by decide +kernel
    have k4 : (str "part").length = 4 := by decide +kernel
    have k5 : (str "\"\n").length = 2 := by decide +kernel
    rw [partsLoop]
    have hs := sfx c f
    have hup := hu p
    split
    · rename_i hd
      have ih := sz_parts c f milli idx ds t s (p + 1)
      rw [sz_cons, List.length_append, List.length_cons, List.map_cons, List.sum_cons, Nat.mul_add, Nat.mul_one]
      have k6 : (str "#EXT-X-PRELOAD-HINT:TYPE=PART").length = 29 := by decide +kernel
      unfold int32 at *
      omega
    · have ih := sz_parts c f milli idx ds (t + d % 2 ^ 30) ((t + d % 2 ^ 30) / milli) (p + 1)
      dsimp only
      rw [sz_cons, List.length_cons, List.map_cons, List.sum_cons, Nat.mul_add, Nat.mul_one]
      simp only [List.length_append]
      have k6 : (str "#EXT-X-PART:DURATION=").length = 21 := by decide +kernel
      have h7 : (partFlags d).length = flagSize d := by
        unfold partFlags flagSize
        split
        · rfl
        · split <;> rfl
      have := secs_len (((t + d % 2 ^ 30) / milli - s) % 2 ^ 32)
      unfold int32 at *
      omega

/-- Room for the parts that are left. -/
def pc (c : Chan) (f : Conf) (ps : List Parts) : Nat := (ps.map (partsSize c f)).sum

theorem sz_partsOf (c : Chan) (f : Conf) (milli : Nat) (s : S) :
    sz (partsOf c f.cont.ext milli s).1 + pc c f (partsOf c f.cont.ext milli s).2 ≤ pc c f s.parts := by
  unfold partsOf
  cases s.parts with
  | nil => simp [sz_nil]
  | cons p ps =>
    dsimp only
    split
    · have := sz_parts c f milli p.idx p.durs s.time (s.time / milli) 0
      unfold partsWrite pc
      rw [List.map_cons, List.sum_cons]
      exact Nat.add_le_add_right this _
    · simp [sz_nil]

theorem pc_dropWhile (c : Chan) (f : Conf) (q : Parts → Bool) : ∀ (ps : List Parts), pc c f (ps.dropWhile q) ≤ pc c f ps
  | [] => Nat.le_refl _
  | p :: ps => by
    rw [List.dropWhile_cons]
    split
    · have := pc_dropWhile c f q ps
      unfold pc at *
      rw [List.map_cons, List.sum_cons]; omega
    · exact Nat.le_refl _

/-! ## Segments -/

def ksteps (milli : Nat) (ests : List (Nat → Nat → Nat)) : List Nat → K → K
  | [], k => k
  | x :: xs, k => ksteps milli ests xs (kstep milli ests x k)

theorem ksteps_append (milli : Nat) (ests : List (Nat → Nat → Nat)) : ∀ (a b : List Nat) (k : K),
    ksteps milli ests (a ++ b) k = ksteps milli ests b (ksteps milli ests a k)
  | [], _, _ => rfl
  | _ :: a, b, _ => ksteps_append milli ests a b _

theorem krep_eq (milli : Nat) (ests : List (Nat → Nat → Nat)) (d : Nat) : ∀ (n : Nat) (k : K),
    krep milli ests d n k = ksteps milli ests (List.replicate n d) k
  | 0, _ => rfl
  | n + 1, k => by rw [krep, List.replicate_succ, ksteps, krep_eq]

theorem kelts_eq (milli : Nat) (ests : List (Nat → Nat → Nat)) : ∀ (es : List Elt) (k : K),
    kelts milli ests es k = ksteps milli ests (es.flatMap fun e => List.replicate e.count e.dur) k
  | [], _ => rfl
  | e :: es, k => by rw [kelts, kelts_eq, krep_eq, List.flatMap_cons, ksteps_append]

/-- The two passes are at the same segment. -/
structure Sync (s : S) (k : K) : Prop where
  seg : s.seg = k.seg
  time : s.time = k.time
  start : s.start = k.start
  last : s.last = k.last
  its : s.its = k.its

theorem sz_step (c : Chan) (f : Conf) (milli : Nat) (ests : List (Nat → Nat → Nat)) (d : Nat) (s : S) (k : K) (h : Sync s k) {n : Nat}
    (hn : s.seg + 1 ≤ n) (hn2 : n < 2 ^ 32) :
    Sync (segStep c f.cont.ext milli ests d s) (kstep milli ests d k) ∧
    sz (segStep c f.cont.ext milli ests d s).out + pc c f (segStep c f.cont.ext milli ests d s).parts + 27 * k.rates + 11 * k.gaps ≤
      sz s.out + pc c f s.parts + segSize c f (printLen n) + 27 * (kstep milli ests d k).rates + 11 * (kstep milli ests d k).gaps := by
  obtain ⟨h1, h2, h3, h4, h5⟩ := h
  have hp := sz_partsOf c f milli s
  unfold segStep kstep
  dsimp only
  rw [h1, h2, h3, h4, h5]
  generalize ((k.time + d) / milli - k.start) % 2 ^ 32 = dur
  generalize mget k.seg k.its (ests.map fun f b => f b dur) 0 = g
  have hu : (write c.id c.types (.seg f.cont.ext k.seg)).length ≤ 4 + printLen n + (sepSelector c.id c.types).length + f.cont.ext.length := by
    simp only [write, List.length_append, List.length_cons]
    have a1 := dec_print (show k.seg + 1 < 2 ^ 32 by omega)
    have a2 := printLen_mono n (k.seg + 1) (by omega)
    have k2 : (str "seg").length = 3 := by decide +kernel
    omega
  have hx := secs_len dur
  have k1 : (str "#EXTINF:").length = 8 := by decide +kernel
  have k2 : (str ".000,\n").length = 6 := by decide +kernel
  have k3 : (str "seg").length = 3 := by decide +kernel
  have k4 : (str "-").length = 1 := by decide +kernel
  have k5 : (str "#EXT-X-GAP").length = 10 := by decide +kernel
  have k6 : (str "#EXT-X-BITRATE:").length = 15 := by decide +kernel
  have hd := dec_len (kbps g.1)
  have hss : segSize c f (printLen n) = 8 + 11 + 6 + 3 + 1 + printLen n + ((sepSelector c.id c.types).length + f.cont.ext.length + 1) := by
    unfold segSize suffixLen int32; rw [k1, k2, k3, k4]
  rw [hss]
  have hr : (rateTag k.last g.1).2 = (if g.1 ≠ 0 ∧ kbps g.1 ≠ 1 ∧ kbps g.1 ≠ k.last then kbps g.1 else k.last) ∧
      sz (rateTag k.last g.1).1 + 27 * k.rates + 11 * k.gaps ≤ 27 * (if g.1 ≠ 0 ∧ kbps g.1 ≠ 1 ∧ kbps g.1 ≠ k.last then k.rates + 1 else k.rates) +
        11 * (if g.1 = 0 then k.gaps + 1 else k.gaps) := by
    unfold rateTag
    by_cases g0 : g.1 = 0
    · rw [if_pos g0, if_neg (fun h => h.1 g0), if_neg (fun h => h.1 g0), if_pos g0]
      simp only [sz_cons, sz_nil, k5]
      exact ⟨trivial, by omega⟩
    · rw [if_neg g0, if_neg g0]
      by_cases g1 : kbps g.1 ≠ 1 ∧ kbps g.1 ≠ k.last
      · rw [if_pos g1, if_pos ⟨g0, g1⟩, if_pos ⟨g0, g1⟩]
        simp only [sz_cons, sz_nil, List.length_append, k6]
        exact ⟨trivial, by omega⟩
      · rw [if_neg g1, if_neg (fun h => g1 h.2), if_neg (fun h => g1 h.2)]
        simp only [sz_nil]
        exact ⟨trivial, by omega⟩
  refine ⟨⟨rfl, rfl, rfl, hr.1, rfl⟩, ?_⟩
  simp only [sz_append, sz_cons, sz_nil, List.length_append, List.length_cons, List.length_nil, k1]
  have := hr.2
  omega

theorem sz_steps (c : Chan) (f : Conf) (milli : Nat) (ests : List (Nat → Nat → Nat)) {n : Nat} (hn2 : n < 2 ^ 32) : ∀ (xs : List Nat) (s : S) (k : K),
    Sync s k → s.seg + xs.length ≤ n →
    Sync (steps c f.cont.ext milli ests xs s) (ksteps milli ests xs k) ∧
    sz (steps c f.cont.ext milli ests xs s).out + pc c f (steps c f.cont.ext milli ests xs s).parts + 27 * k.rates + 11 * k.gaps ≤
      sz s.out + pc c f s.parts + segSize c f (printLen n) * xs.length + 27 * (ksteps milli ests xs k).rates + 11 * (ksteps milli ests xs k).gaps
  | [], s, k, h, _ => ⟨h, by simp [steps, ksteps]⟩
  | x :: xs, s, k, h, hn => by
    simp only [List.length_cons] at hn
    obtain ⟨a1, a2⟩ := sz_step c f milli ests x s k h (n := n) (by omega) hn2
    have hseg : (segStep c f.cont.ext milli ests x s).seg = s.seg + 1 := rfl
    obtain ⟨b1, b2⟩ := sz_steps c f milli ests hn2 xs _ _ a1 (by rw [hseg]; omega)
    refine ⟨b1, ?_⟩
    rw [steps, ksteps, List.length_cons, Nat.mul_add, Nat.mul_one]
    omega

theorem kstep_mono (milli : Nat) (ests : List (Nat → Nat → Nat)) (d : Nat) (k : K) :
    k.gaps ≤ (kstep milli ests d k).gaps ∧ k.rates ≤ (kstep milli ests d k).rates := by
  unfold kstep
  dsimp only
  constructor <;> (split <;> omega)

/-! ## Periods -/

def k0 (p : Period) (milli : Nat) (its : List PIter) : K :=
  { seg := p.idx, time := p.time, start := p.time / milli, last := 0, its, gaps := 0, rates := 0 }

/-- The tags that are written in a period. -/
def kw (f : Conf) (milli : Nat) (p : Period) (its : List PIter) : K := ksteps milli (f.est p.idx) (durs p) (k0 p milli its)

theorem sz_period (c : Chan) (f : Conf) (milli : Nat) {k : Nat} {p : Period} {ps : List Period} (hp : PersOk k (p :: ps)) (parts : List Parts)
    (its : List PIter) {n : Nat} (hn : p.idx + count p ≤ n) (hn2 : n < 2 ^ 32) :
    sz (writePeriod c f milli p parts its).1 + pc c f (writePeriod c f milli p parts its).2.1 ≤
      pc c f parts + segSize c f (printLen n) * segCount p + 27 * (kw f milli p its).rates + 11 * (kw f milli p its).gaps ∧
    (writePeriod c f milli p parts its).2.2 = (kw f milli p its).its := by
  obtain ⟨w1, w2, _, _, _⟩ := written_durs hp
  unfold writePeriod
  dsimp only
  rw [eltsLoop_eq, w1]
  obtain ⟨a1, a2⟩ := sz_steps c f milli (f.est p.idx) hn2 (durs p)
    { out := [], seg := p.idx, time := p.time, start := p.time / milli, last := 0, parts := parts.dropWhile (·.idx < p.idx), its } (k0 p milli its)
    ⟨rfl, rfl, rfl, rfl, rfl⟩ (by show p.idx + (durs p).length ≤ n; rw [w2] at hn; omega)
  refine ⟨?_, a1.its⟩
  have hdrop := pc_dropWhile c f (fun q => q.idx < p.idx) parts
  have hle : segSize c f (printLen n) * (durs p).length ≤ segSize c f (printLen n) * segCount p := Nat.mul_le_mul_left _ (by
    have : segCount p = count p := rfl
    rw [this, w2]; omega)
  have z1 : (k0 p milli its).rates = 0 := rfl
  have z2 : (k0 p milli its).gaps = 0 := rfl
  rw [z1, z2] at a2
  simp only [sz_nil] at a2
  unfold kw
  rw [sz_append]
  split
  · have := sz_partsOf c f milli (steps c f.cont.ext milli (f.est p.idx) (durs p)
      { out := [], seg := p.idx, time := p.time, start := p.time / milli, last := 0, parts := parts.dropWhile (·.idx < p.idx), its })
    omega
  · simp only [sz_nil]; omega

/-- Gaps and bitrates that are written. -/
def wcount (f : Conf) (milli : Nat) : List Period → List PIter → Nat × Nat
  | [], _ => (0, 0)
  | p :: ps, its => ((kw f milli p its).gaps + (wcount f milli ps (kw f milli p its).its).1, (kw f milli p its).rates + (wcount f milli ps (kw f milli p its).its).2)

/-- The first media info. -/
def m0 (c : Chan) : Nat := c.infos.flatten.min?.getD invalid

/-- What an initialization segment after all segments may need more. -/
def bud (c : Chan) (lastMap k : Nat) : Nat := if m0 c ≤ k ∨ lastMap = m0 c then 0 else 9

theorem map_cases {c : Chan} (ho : MapsOk c.infos) (hne : c.infos ≠ []) {x : Nat} (hx : x < invalid) :
    (m0 c ≤ x ∧ mapOf c x ≤ x) ∨ (x < m0 c ∧ mapOf c x = m0 c) := by
  have hf : c.infos.flatten ≠ [] := by
    cases hc : c.infos with
    | nil => exact absurd hc hne
    | cons t ts =>
      have := (ho t (by simp [hc])).1
      simp [this]
  have hi := infoLoop_isMap hx c.infos [] invalid ho (.inr ⟨by simp, .inr ⟨rfl, rfl⟩⟩)
  rw [List.nil_append] at hi
  have hm := isMap_mapOf hi
  obtain ⟨m, hmin⟩ : ∃ m, c.infos.flatten.min? = some m := by
    cases h : c.infos.flatten.min? with
    | none => rw [List.min?_eq_none_iff] at h; exact absurd h hf
    | some m => exact ⟨m, rfl⟩
  have hm0 : m0 c = m := by unfold m0; rw [hmin]; rfl
  rw [List.min?_eq_some_iff] at hmin
  rw [hm, hm0]
  rcases hi with ⟨a1, a2, _⟩ | ⟨a1, a2⟩
  · exact .inl ⟨by have := hmin.2 _ a1; omega, a2⟩
  · have b1 := a1 m hmin.1
    have hmem : (infoLoop x invalid c.infos).1 ∈ c.infos.flatten := by
      rcases a2 with a2 | a2
      · exact a2
      · exact absurd a2.1 hf
    have b2 := hmin.2 _ hmem
    exact .inr ⟨b1.1, by omega⟩

theorem m0_lt {c : Chan} (ho : MapsOk c.infos) (hne : c.infos ≠ []) : m0 c < invalid := by
  rcases map_cases ho hne (show 0 < invalid by decide) with h | h
  · have : (0:Nat) < invalid := by decide
    omega
  · rw [← h.2]; exact mapOf_lt ho hne (by decide)

theorem bud_mono (c : Chan) (m : Nat) {a b : Nat} (h : a ≤ b) : bud c m b ≤ bud c m a := by
  unfold bud
  by_cases h1 : m0 c ≤ a ∨ m = m0 c
  · rw [if_pos h1, if_pos (by rcases h1 with h1 | h1; · exact .inl (by omega)
                              · exact .inr h1)]
    exact Nat.le_refl _
  · rw [if_neg h1]; split <;> omega

theorem sz_head (c : Chan) (f : Conf) (milli : Nat) (ho : MapsOk c.infos) (hne : c.infos ≠ []) (p : Period) (i lastMap k : Nat) {n : Nat}
    (hk : k ≤ p.idx) (hx : p.idx < invalid) (hn : p.idx + 1 ≤ n) (hd : f.date = true → TmOk (f.gm (p.time / c.timescale))) :
    sz (periodHead c f milli p i (mapOf c p.idx) lastMap).1 + bud c (periodHead c f milli p i (mapOf c p.idx) lastMap).2 p.idx ≤
      periodSize c f (printLen n) + bud c lastMap k := by
  have k1 : (str "#EXT-X-DISCONTINUITY").length = 20 := by decide +kernel
  have k2 : (str "#EXT-X-DISCONTINUITY\n").length = 21 := by decide +kernel
  have k3 : (str "#EXT-X-PROGRAM-DATE-TIME:2000-01-01T00:00:00.000+00:00\n").length = 55 := by decide +kernel
  have k4 : (str "#EXT-X-PROGRAM-DATE-TIME:").length = 25 := by decide +kernel
  have k5 : (str "#EXT-X-MAP:URI=\"").length = 16 := by decide +kernel
  have k6 : (str "-\"\n").length = 3 := by decide +kernel
  have k7 : (str "init").length = 4 := by decide +kernel
  have k8 : (str ".mp4").length = 4 := by decide +kernel
  have k9 : (str "+00:00").length = 6 := by decide +kernel
  have kp := printLen_pos n
  unfold periodHead periodSize
  simp only [sz_append]
  rw [k2, k3, k5, k6, k7, k8]
  have a1 : ∀ b : Bool, sz (if b then [str "#EXT-X-DISCONTINUITY"] else []) ≤ 21 := by
    intro b
    split
    · simp [sz_cons, sz_nil, k1]
    · simp [sz_nil]
  have a1 := a1 (decide (i > 0) || (decide (c.skipSegs > 0) && decide (p.idx = c.initIdx)))
  have a2 : sz (if f.date then [dateLine f c.timescale milli p.time] else []) ≤ (if f.date then 55 else 0) := by
    split
    · rename_i hf
      have t := hd hf
      unfold dateLine
      simp only [sz_cons, sz_nil, List.length_append, List.length_cons, t.year.1, Sub.padded_two _ t.mon, Sub.padded_two _ t.mday, Sub.padded_two _ t.hour,
        Sub.padded_two _ t.min, Sub.padded_two _ t.sec, Sub.padded_three _ (Nat.mod_lt (p.time / milli) (show 0 < 1000 by decide)), k4, k9]
      decide
    · simp [sz_nil]
  cases hi : f.cont.hasInit with
  | false =>
    simp only [Bool.false_and, Bool.false_eq_true, if_false, sz_nil]
    have hb : bud c lastMap p.idx ≤ bud c lastMap k := bud_mono c lastMap hk
    omega
  | true =>
    simp only [if_true, Bool.true_and]
    have hw : ∀ m, (write c.id c.types (.init m)).length = 4 + 1 + (dec (m + 1)).length + (sepSelector c.id c.types).length + 4 := by
      intro m
      simp only [write, List.length_append, List.length_cons, k7, k8]; omega
    have b1 : sz (if (mapOf c p.idx != lastMap) && (decide (i > 0) || decide (c.skipSegs = 0) || decide (p.idx = c.initIdx)) then
        [str "#EXT-X-MAP:URI=\"" ++ (write c.id c.types (.init (mapOf c p.idx)) ++ [34])] else []) ≤
        if mapOf c p.idx = lastMap then 0 else 27 + (dec (mapOf c p.idx + 1)).length + (sepSelector c.id c.types).length := by
      split
      · rename_i h
        have : ¬ mapOf c p.idx = lastMap := by
          intro e; rw [e] at h; simp at h
        rw [if_neg this]
        simp only [sz_cons, sz_nil, List.length_append, List.length_cons, List.length_nil, hw, k5]
        omega
      · simp [sz_nil]
    rcases map_cases ho hne hx with ⟨m1, m2⟩ | ⟨m1, m2⟩
    · have d1 : (dec (mapOf c p.idx + 1)).length ≤ printLen n := by
        have e1 := dec_print (show mapOf c p.idx + 1 < 2 ^ 32 by unfold invalid at hx; omega)
        have e2 := printLen_mono n (mapOf c p.idx + 1) (by omega)
        omega
      have e3 : bud c (mapOf c p.idx) p.idx = 0 := by unfold bud; rw [if_pos (.inl m1)]
      rw [e3]
      by_cases hl : mapOf c p.idx = lastMap
      · rw [if_pos hl] at b1; omega
      · rw [if_neg hl] at b1; omega
    · have e3 : bud c (mapOf c p.idx) p.idx = 0 := by unfold bud; rw [if_pos (.inr m2)]
      rw [e3]
      by_cases hl : mapOf c p.idx = lastMap
      · rw [if_pos hl] at b1; omega
      · rw [if_neg hl] at b1
        have e4 : bud c lastMap k = 9 := by
          unfold bud
          rw [if_neg]
          rintro (h | h)
          · omega
          · rw [h] at hl; exact hl m2
        have := dec_len (mapOf c p.idx + 1)
        omega

theorem count_pos {k : Nat} {p : Period} {ps : List Period} (hp : PersOk k (p :: ps)) : 0 < count p := by
  obtain ⟨_, w2, _, w4, _⟩ := written_durs hp
  rw [w2]
  cases hpe : pending p with
  | true => simp
  | false => have := List.length_pos_iff.2 (w4 hpe); omega

theorem sz_periods (c : Chan) (f : Conf) (milli : Nat) (ho : MapsOk c.infos) (hne : c.infos ≠ [])
    (hd : ∀ p ∈ c.periods, f.date = true → TmOk (f.gm (p.time / c.timescale))) {n : Nat} (hn2 : n < 2 ^ 32) :
    ∀ (ps : List Period) (s : P) (k : Nat), PersOk k ps → (∀ p ∈ ps, p ∈ c.periods ∧ p.idx + count p ≤ n) →
    (∀ y, k ≤ y → infoGet y s.infos = infoGet y c.infos) →
    sz (periodsLoop c f milli ps s) ≤ periodSize c f (printLen n) * ps.length + segSize c f (printLen n) * (ps.map segCount).sum + pc c f s.parts +
      27 * (wcount f milli ps s.its).2 + 11 * (wcount f milli ps s.its).1 + bud c s.lastMap k
  | [], s, k, _, _, _ => by simp [periodsLoop, sz_nil]
  | p :: ps, s, k, hp, hin, hi => by
    have hk : k ≤ p.idx := hp.1
    have hpos := count_pos hp
    have hpn := (hin p (by simp)).2
    have hlt : p.idx < invalid := by have := hp.2.2.2.2.2.1; omega
    have hmap : (infoGet p.idx s.infos).1 = mapOf c p.idx := by rw [hi p.idx hk, infoGet_mapOf ho hlt]
    rw [periodsLoop, hmap]
    obtain ⟨a1, a2⟩ := sz_period c f milli hp s.parts s.its hpn hn2
    have a3 := sz_head c f milli ho hne p s.i s.lastMap k hk hlt (show p.idx + 1 ≤ n by omega) (hd p (hin p (by simp)).1)
    have ih := sz_periods c f milli ho hne hd hn2 ps
      { i := s.i + 1, lastMap := (periodHead c f milli p s.i (mapOf c p.idx) s.lastMap).2, infos := (infoGet p.idx s.infos).2,
        parts := (writePeriod c f milli p s.parts s.its).2.1, its := (writePeriod c f milli p s.parts s.its).2.2 } (p.idx + count p)
      hp.2.2.2.2.2.2 (fun q hq => hin q (by simp [hq])) (by
        intro y hy
        have : p.idx ≤ y := by omega
        unfold infoGet
        rw [infoLoop_again this]
        exact hi y (by omega))
    have hb := bud_mono c (periodHead c f milli p s.i (mapOf c p.idx) s.lastMap).2 (show p.idx ≤ p.idx + count p by omega)
    dsimp only at ih
    rw [a2] at ih ⊢
    simp only [sz_append, List.length_cons, List.map_cons, List.sum_cons, Nat.mul_add, Nat.mul_one, wcount]
    omega

/-! ## The room for tags -/

theorem wcount_le (f : Conf) (milli : Nat) : ∀ (ps : List Period) (its : List PIter) (k : Nat), PersOk k ps →
    (wcount f milli ps its).1 ≤ (countPeriods f milli ps its).1 ∧ (wcount f milli ps its).2 ≤ (countPeriods f milli ps its).2
  | [], _, _, _ => ⟨Nat.le_refl _, Nat.le_refl _⟩
  | p :: ps, its, k, hp => by
    obtain ⟨w1, _, w3, _, _⟩ := written_durs hp
    rw [wcount, countPeriods]
    dsimp only
    have hc : countPeriod f milli p its = ksteps milli (f.est p.idx) (p.elts.flatMap fun e => List.replicate e.count e.dur) (k0 p milli its) := by
      unfold countPeriod; rw [kelts_eq]; rfl
    by_cases hpe : pending p = true
    · have hps := w3 hpe
      subst hps
      obtain ⟨e, e1, e2⟩ := elts_last hp.2.1
      have hx : ∃ ys, (p.elts.flatMap fun e => List.replicate e.count e.dur) = durs p ++ ys := by
        unfold written at w1
        rw [if_pos hpe] at w1
        refine ⟨List.replicate e.count e.dur, ?_⟩
        rw [← w1]
        conv => lhs; rw [e2]
        simp [List.flatMap_append]
      obtain ⟨ys, hy⟩ := hx
      rw [hc, hy, ksteps_append]
      have mono : ∀ (ys : List Nat) (k : K), k.gaps ≤ (ksteps milli (f.est p.idx) ys k).gaps ∧ k.rates ≤ (ksteps milli (f.est p.idx) ys k).rates := by
        intro ys
        induction ys with
        | nil => intro k; exact ⟨Nat.le_refl _, Nat.le_refl _⟩
        | cons y ys ih =>
          intro k
          have h1 := kstep_mono milli (f.est p.idx) y k
          have h2 := ih (kstep milli (f.est p.idx) y k)
          exact ⟨Nat.le_trans h1.1 h2.1, Nat.le_trans h1.2 h2.2⟩
      have := mono ys (ksteps milli (f.est p.idx) (durs p) (k0 p milli its))
      exact this
    · have hy : (p.elts.flatMap fun e => List.replicate e.count e.dur) = durs p := by
        unfold written at w1
        rw [if_neg hpe] at w1
        exact w1
      rw [hc, hy]
      have ih := wcount_le f milli ps (kw f milli p its).its _ hp.2.2.2.2.2.2
      unfold kw at ih ⊢
      exact ⟨Nat.add_le_add_left ih.1 _, Nat.add_le_add_left ih.2 _⟩

theorem kstep_gap {c : Chan} (hn : NoBitrates c.segInfos) (hs : InfosOk c) (milli : Nat) {ests : List (Nat → Nat → Nat)}
    (hl : ests.length = c.segInfos.length) (d : Nat) (k : K) (hi : Its c.segInfos k.its k.seg) :
    (kstep milli ests d k).rates = k.rates ∧ (kstep milli ests d k).gaps = k.gaps + (if allGap c.segInfos k.seg then 1 else 0) ∧
    Its c.segInfos (kstep milli ests d k).its (k.seg + 1) := by
  unfold kstep
  dsimp only
  generalize ((k.time + d) / milli - k.start) % 2 ^ 32 = dur
  have hl2 : (ests.map fun f b => f b dur).length = c.segInfos.length := by simpa using hl
  have h1 := SegmentInfo.mget_gap hn hs.sorted hl2 hi (Nat.le_refl _)
  have h2 := SegmentInfo.mget_val k.seg c.segInfos k.its (ests.map fun f b => f b dur) 0 k.seg hs.sorted hi (Nat.le_refl _) hl2 (by decide)
  have h3 := SegmentInfo.mget_its k.seg c.segInfos k.its (ests.map fun f b => f b dur) 0 k.seg hs.sorted hi (Nat.le_refl _)
  have hv : (mget k.seg k.its (ests.map fun f b => f b dur) 0).1 = 0 ∨ (mget k.seg k.its (ests.map fun f b => f b dur) 0).1 = 1 := by
    by_cases hg : allGap c.segInfos k.seg = true
    · exact .inl (h1.2 hg)
    · right
      rw [h2, if_pos]
      obtain ⟨es, he, hne⟩ : ∃ es, es ∈ c.segInfos ∧ ¬ (SegmentInfo.valAt noBitrate es k.seg == 0) = true := by
        apply Classical.byContradiction
        intro hx
        apply hg
        simp only [allGap, List.all_eq_true]
        intro es he
        apply Classical.byContradiction
        intro h
        exact hx ⟨es, he, h⟩
      rcases SegmentInfo.noBitrates_val hn he k.seg with h | h
      · exact absurd (by simpa using h) hne
      · exact List.mem_map.2 ⟨es, he, h⟩
  refine ⟨?_, ?_, Its.mono h3 (Nat.le_succ _)⟩
  · rw [if_neg]
    rintro ⟨a, b, _⟩
    rcases hv with hv | hv
    · exact a hv
    · rw [hv] at b; exact b (by decide)
  · by_cases hg : allGap c.segInfos k.seg = true
    · rw [if_pos (h1.2 hg), if_pos hg]
    · rw [if_neg (fun h => hg (h1.1 h)), if_neg hg]; rfl

theorem ksteps_gap {c : Chan} (hn : NoBitrates c.segInfos) (hs : InfosOk c) (milli : Nat) {ests : List (Nat → Nat → Nat)}
    (hl : ests.length = c.segInfos.length) : ∀ (xs : List Nat) (k : K), Its c.segInfos k.its k.seg →
    (ksteps milli ests xs k).rates = k.rates ∧ (ksteps milli ests xs k).gaps = k.gaps + ((List.range' k.seg xs.length).filter (allGap c.segInfos)).length ∧
    Its c.segInfos (ksteps milli ests xs k).its (k.seg + xs.length)
  | [], k, hi => ⟨rfl, by simp [ksteps], hi⟩
  | x :: xs, k, hi => by
    obtain ⟨a1, a2, a3⟩ := kstep_gap hn hs milli hl x k hi
    have hseg : (kstep milli ests x k).seg = k.seg + 1 := rfl
    obtain ⟨b1, b2, b3⟩ := ksteps_gap hn hs milli hl xs (kstep milli ests x k) (by rw [hseg]; exact a3)
    rw [ksteps, b1, b2, a1, a2, hseg, List.length_cons, List.range'_succ, List.filter_cons]
    refine ⟨rfl, ?_, ?_⟩
    · split
      · rw [List.length_cons]; omega
      · omega
    · rw [hseg] at b3
      rw [show k.seg + (xs.length + 1) = k.seg + 1 + xs.length by omega]; exact b3

theorem wcount_gap {c : Chan} (f : Conf) (hn : NoBitrates c.segInfos) (hs : InfosOk c) (milli : Nat) (hl : ∀ x, (f.est x).length = c.segInfos.length) :
    ∀ (ps : List Period) (its : List PIter) (k : Nat), PersOk k ps → Its c.segInfos its k →
    (wcount f milli ps its).2 = 0 ∧ ∃ xs, Written (ps.map fun p => (p.idx, segCount p)) xs ∧
      (wcount f milli ps its).1 = (xs.filter (allGap c.segInfos)).length ∧ Periods k (ps.map fun p => (p.idx, segCount p))
  | [], _, _, _, _ => ⟨rfl, [], rfl, rfl, trivial⟩
  | p :: ps, its, k, hp, hi => by
    obtain ⟨_, w2, _, _, _⟩ := written_durs hp
    obtain ⟨a1, a2, a3⟩ := ksteps_gap hn hs milli (hl p.idx) (durs p) (k0 p milli its) (hi.mono hp.1)
    have a3 : Its c.segInfos (kw f milli p its).its (p.idx + (durs p).length) := a3
    have hc : segCount p = count p := rfl
    obtain ⟨b1, xs, b2, b3, b4⟩ := wcount_gap f hn hs milli hl ps (kw f milli p its).its (p.idx + count p) hp.2.2.2.2.2.2 (a3.mono (by rw [w2]; omega))
    rw [wcount]
    refine ⟨?_, List.range' p.idx (durs p).length ++ xs, ?_, ?_, ?_⟩
    · show (kw f milli p its).rates + _ = 0
      rw [b1]; exact a1
    · exact ⟨p.idx, (durs p).length, xs, Nat.le_refl _, by rw [hc, w2]; omega, rfl, b2⟩
    · show (kw f milli p its).gaps + _ = _
      rw [b3, List.filter_append, List.length_append]
      have : (kw f milli p its).gaps = 0 + ((List.range' p.idx (durs p).length).filter (allGap c.segInfos)).length := a2
      omega
    · have := hp.2.2.2.2.2.1
      unfold invalid at this
      exact ⟨hp.1, by rw [hc]; omega, b4⟩

/-! ## The playlist -/

/-- What the sizes need. -/
structure FitOk (c : Chan) (f : Conf) : Prop where
  pers : PersOk 0 c.periods
  maps : c.infos ≠ [] ∧ MapsOk c.infos
  tracks : c.segInfos ≠ []
  infos : InfosOk c
  ests : ∀ x, (f.est x).length = c.segInfos.length
  dates : ∀ p ∈ c.periods, f.date = true → TmOk (f.gm (p.time / c.timescale))
  skip : c.skipSegs > 0 → ∀ p, c.periods.head? = some p → c.lastSkip ≤ p.idx

theorem last_max : ∀ (ps : List Period) (k : Nat) (l : Period), PersOk k ps → ps.getLast? = some l → ∀ p ∈ ps, p.idx + count p ≤ l.idx + count l
  | [], _, _, _, _, p, hp => by cases hp
  | [a], _, l, _, hl, p, hp => by simp at hl hp; subst hl; subst hp; exact Nat.le_refl _
  | a :: b :: ps, k, l, h, hl, p, hp => by
    rw [List.getLast?_cons_cons] at hl
    have ih := last_max (b :: ps) _ l h.2.2.2.2.2.2 hl
    rcases List.mem_cons.1 hp with rfl | hp
    · have h1 := ih b (by simp)
      have h2 : p.idx + count p ≤ b.idx := h.2.2.2.2.2.2.1
      omega
    · exact ih p hp

theorem sz_header (c : Chan) (f : Conf) : sz (header c f) + 17 ≤
    (str "#EXTM3U\n#EXT-X-TARGETDURATION:%uD\n#EXT-X-VERSION:%uD\n#EXT-X-MEDIA-SEQUENCE:%uD\n#EXT-X-DISCONTINUITY-SEQUENCE:%uD\n#EXT-X-INDEPENDENT-SEGMENTS\n#EXT-X-ALLOW-CACHE:YES\n").length + 1 + 4 * int32 := by
  have k0 : (str "#EXTM3U\n#EXT-X-TARGETDURATION:%uD\n#EXT-X-VERSION:%uD\n#EXT-X-MEDIA-SEQUENCE:%uD\n#EXT-X-DISCONTINUITY-SEQUENCE:%uD\n#EXT-X-INDEPENDENT-SEGMENTS\n#EXT-X-ALLOW-CACHE:YES\n").length =
    (str "#EXTM3U").length + (str "#EXT-X-TARGETDURATION:").length + (str "#EXT-X-VERSION:").length + (str "#EXT-X-MEDIA-SEQUENCE:").length +
      (str "#EXT-X-DISCONTINUITY-SEQUENCE:").length + (str "#EXT-X-INDEPENDENT-SEGMENTS").length + (str "#EXT-X-ALLOW-CACHE:YES").length + 19 := by decide +kernel
  rw [k0]
  unfold header int32
  simp only [sz_cons, sz_nil, List.length_append]
  have := dec_len (targetSecs c)
  have := dec_len (version c f)
  have := dec_len c.seq
  have := dec_len (c.firstIdx + 2 ^ 32 - c.skipPer)
  omega

theorem sz_control (c : Chan) (f : Conf) : sz (serverControl c f) ≤ controlSize := by
  have k1 : (str "CAN-SKIP-UNTIL=%uD.%03uD").length = (str "CAN-SKIP-UNTIL=").length + 9 := by decide +kernel
  have k2 : (str "PART-HOLD-BACK=%uD.%03uD").length = (str "PART-HOLD-BACK=").length + 9 := by decide +kernel
  have k3 : (str ",,\n").length = 3 := by decide +kernel
  unfold serverControl controlSize int32
  rw [k1, k2, k3]
  dsimp only
  generalize (if f.oneType && f.parts && decide (c.partDur ≠ 0) then f.holdPct else 0) = hold
  have s1 := secs_len (targetSecs c * f.skipPct * 10 % 2 ^ 64)
  have s2 := secs_len (c.partDur * hold * 10 % 2 ^ 64 / c.timescale)
  simp only [Nat.reducePow] at s1 s2
  generalize (f.oneType && !c.endList && f.block) = block
  split
  · simp [sz_nil]
  · by_cases h1 : block = true <;> by_cases h2 : f.skipPct = 0 <;> by_cases h3 : hold = 0 <;>
      simp [sz_cons, sz_nil, h1, h2, h3, commas] <;> omega

theorem sz_reports (c : Chan) : sz (reports c) ≤ reportsSize c := by
  unfold reports reportsSize
  have k1 : (str ",LAST-MSN=%uD").length = (str ",LAST-MSN=").length + 3 := by decide +kernel
  have k2 : (str ",LAST-PART=%uD").length = (str ",LAST-PART=").length + 3 := by decide +kernel
  have k3 : (str "\"\n").length = 2 := by decide +kernel
  rw [k1, k2, k3]
  have hl : ∀ (id : Bytes) (r : Rep), (reportLine c id r).length + 1 ≤ (str "#EXT-X-RENDITION-REPORT:URI=\"").length + (str "index").length + sepSelectorSize id +
      (str ".m3u8").length + ((str ",LAST-MSN=").length + 3) + int32 + ((str ",LAST-PART=").length + 3) + int32 + 2 := by
    intro id r
    have := PName.selector_fits id (2 ^ r.type)
    have := dec_len r.seq
    have := dec_len r.part
    unfold reportLine int32
    simp only [write, List.length_append, List.length_cons]
    split <;> split <;> simp only [List.length_append, List.length_nil] <;> omega
  have hv : ∀ (id : Bytes) (l : List Rep), sz (l.map (reportLine c id)) ≤ ((str "#EXT-X-RENDITION-REPORT:URI=\"").length + (str "index").length + sepSelectorSize id +
      (str ".m3u8").length + ((str ",LAST-MSN=").length + 3) + int32 + ((str ",LAST-PART=").length + 3) + int32 + 2) * l.length := by
    intro id l
    induction l with
    | nil => simp [sz_nil]
    | cons r l ih =>
      rw [List.map_cons, sz_cons, List.length_cons, Nat.mul_add, Nat.mul_one]
      have := hl id r
      omega
  induction c.reps with
  | nil => simp [sz_nil]
  | cons v l ih =>
    rw [List.flatMap_cons, sz_append, List.map_cons, List.sum_cons]
    have := hv v.1 v.2
    omega

/-- **C107.** The playlist is not longer than the buffer. -/
theorem playlist_fits (c : Chan) (f : Conf) (h : FitOk c f) {last : Period} (hl : c.periods.getLast? = some last) {b : Bytes} (hb : build c f = .ok b) :
    b.length ≤ bufSize c f last := by
  unfold build at hb
  split at hb
  · cases hb
  injection hb with hb
  subst hb
  have hmax := last_max c.periods 0 last h.pers hl
  obtain ⟨hn2, hidx⟩ : last.idx + count last < 2 ^ 32 ∧ True := by
    refine ⟨?_, trivial⟩
    have key : ∀ (ps : List Period) (k : Nat), PersOk k ps → ∀ p ∈ ps, p.idx + count p ≤ invalid := by
      intro ps
      induction ps with
      | nil => intro k _ p hp; cases hp
      | cons a ps ih =>
        intro k hk p hp
        rcases List.mem_cons.1 hp with rfl | hp
        · exact hk.2.2.2.2.2.1
        · exact ih _ hk.2.2.2.2.2.2 p hp
    have := key c.periods 0 h.pers last (List.mem_of_getLast? hl)
    unfold invalid at this; omega
  have hix : indexSize last = printLen (last.idx + count last) := by
    unfold indexSize
    rw [show segCount last = count last from rfl, Nat.mod_eq_of_lt hn2]
  obtain ⟨k, hk, hki⟩ : ∃ k, PersOk k c.periods ∧ ∀ y, k ≤ y → infoGet y (startP c).infos = infoGet y c.infos := by
    by_cases hs : c.skipSegs > 0
    · refine ⟨c.lastSkip, ?_, ?_⟩
      · have hper := h.pers
        cases hps : c.periods with
        | nil => trivial
        | cons p ps =>
          rw [hps] at hper
          exact ⟨h.skip hs p (by rw [hps]; rfl), hper.2⟩
      · intro y hy
        unfold startP
        rw [if_pos hs]
        unfold infoGet
        exact infoLoop_again hy _ _ _
    · refine ⟨0, h.pers, fun y _ => ?_⟩
      unfold startP
      rw [if_neg hs]
  have hper := sz_periods c f (c.timescale / 1000) h.maps.2 h.maps.1 h.dates hn2 c.periods (startP c) k hk (fun p hp => ⟨hp, hmax p hp⟩) hki
  have hits : (startP c).its = c.segInfos.map pinit := rfl
  have hpc : pc c f (startP c).parts = trackPartsSize c f := by
    unfold startP trackPartsSize pc
    dsimp only
    by_cases hx : c.segInfos.length = 1 <;> simp [hx]
  have hbud : bud c (startP c).lastMap k ≤ 9 := by unfold bud; split <;> omega
  rw [hits, hpc] at hper
  have k5 : (str "#EXT-X-GAP\n").length = 11 := by decide +kernel
  have k6 : (str "#EXT-X-BITRATE:").length = 15 := by decide +kernel
  have htags : 27 * (wcount f (c.timescale / 1000) c.periods (c.segInfos.map pinit)).2 + 11 * (wcount f (c.timescale / 1000) c.periods (c.segInfos.map pinit)).1 ≤
      (if mhas (c.segInfos.map pinit) then bitrateSize c f else gapSize c) := by
    split
    · have := wcount_le f (c.timescale / 1000) c.periods (c.segInfos.map pinit) 0 h.pers
      unfold bitrateSize int32
      dsimp only
      rw [k5, k6]
      omega
    · rename_i hh
      have hh : mhas (c.segInfos.map pinit) = false := by simpa using hh
      obtain ⟨a1, xs, a2, a3, a4⟩ := wcount_gap f (SegmentInfo.mhas_false hh) h.infos (c.timescale / 1000) h.ests c.periods (c.segInfos.map pinit) 0 h.pers (Its.init _)
      have := SegmentInfo.room_ge h.tracks h.infos.sorted _ 0 xs _ 0 a4 a2 (Its.init c.segInfos) (Nat.le_refl _) (by decide)
      unfold gapSize
      rw [k5, a1, a3]
      omega
  have h1 := sz_header c f
  have h2 := sz_control c f
  have h3 := sz_reports c
  have h4 : sz (partInf c f) ≤ (str "#EXT-X-PART-INF:PART-TARGET=%uD.%03uD\n").length + 2 * int32 := by
    have k : (str "#EXT-X-PART-INF:PART-TARGET=%uD.%03uD\n").length = (str "#EXT-X-PART-INF:PART-TARGET=").length + 10 := by decide +kernel
    unfold partInf int32
    split
    · simp only [sz_cons, sz_nil, List.length_append]
      have := secs_len ((c.partDur * 1000 + c.timescale / 2) / c.timescale % 2 ^ 32)
      omega
    · simp [sz_nil]
  have h5 : sz (skipTag c) ≤ (str "#EXT-X-SKIP:SKIPPED-SEGMENTS=%uD\n").length + int32 := by
    have k : (str "#EXT-X-SKIP:SKIPPED-SEGMENTS=%uD\n").length = (str "#EXT-X-SKIP:SKIPPED-SEGMENTS=").length + 4 := by decide +kernel
    unfold skipTag int32
    split
    · simp only [sz_cons, sz_nil, List.length_append]
      have := dec_len c.skipSegs
      omega
    · simp [sz_nil]
  have h6 : sz (if c.endList then [str "#EXT-X-ENDLIST"] else []) ≤ (str "#EXT-X-ENDLIST\n").length := by
    split
    · decide +kernel
    · simp [sz_nil]
  show sz (lines c f) ≤ _
  unfold lines bufSize
  simp only [sz_append]
  rw [hix]
  omega

end Verif.M3u8
