import Verif.Fmp4Trun

/-!
# The response as boxes, and its size
-/

namespace Verif.Fmp4

open Fmp4Spec (num slice Box boxes allBoxes kind the Sample Entry signed)

/-! ## Entries of a track -/

/-- The entries of cues. -/
def cueEs : Nat → List Frame → List Entry
  | _, [] => []
  | d, f :: fs => ⟨f.delay, f.size, 0, d⟩ :: cueEs ((d + f.dur) % 2 ^ 32) fs

/-- The delay of the first frame. -/
def Track.initial (t : Track) : Nat := match t.frames with | [] => 0 | f :: _ => f.delay

/-- The entries of a track. -/
def Track.es (t : Track) : List Entry :=
  match t.kind with
  | .video => t.frames.map fun f => ⟨f.dur, f.size, if f.key then 0x02000000 else 0x01010000, u32 (f.delay - t.initial)⟩
  | .audio => t.frames.map fun f => ⟨f.dur, f.size, 0, 0⟩
  | .cue => cueEs 0 t.frames

theorem cueEs_enc (d : Nat) (fs : List Frame) : cueEntries d fs = (cueEs d fs).map (encEntry .cue) := by
  induction fs generalizing d with
  | nil => rfl
  | cons f fs ih => simp only [cueEntries, cueEs, List.map_cons, ih]; rfl

theorem cueEs_size (d : Nat) (fs : List Frame) : (cueEs d fs).map (·.size) = fs.map (·.size) := by
  induction fs generalizing d with
  | nil => rfl
  | cons f fs ih => simp only [cueEs, List.map_cons, ih]

theorem entries_es (t : Track) : entries t = t.es.map (encEntry t.kind) := by
  unfold entries Track.es
  cases hk : t.kind with
  | video => simp only [List.map_map]; rfl
  | audio => simp only [List.map_map]; rfl
  | cue => exact cueEs_enc 0 t.frames

theorem es_size (t : Track) : t.es.map (·.size) = t.frames.map (·.size) := by
  unfold Track.es
  cases hk : t.kind with
  | video => simp only [List.map_map]; rfl
  | audio => simp only [List.map_map]; rfl
  | cue => exact cueEs_size 0 t.frames

theorem es_length (t : Track) : t.es.length = t.frames.length := by
  have := congrArg List.length (es_size t)
  simpa using this

theorem u32_lt (x : Int) : u32 x < 2 ^ 32 := by unfold u32; omega

theorem cueEs_ok {d : Nat} {fs : List Frame} (hd : d < 2 ^ 32) (h : ∀ f ∈ fs, f.size < 2 ^ 32 ∧ f.delay < 2 ^ 32) :
    ∀ e ∈ cueEs d fs, EntryOk .cue e := by
  induction fs generalizing d with
  | nil => intro e he; cases he
  | cons f fs ih =>
    intro e he
    unfold cueEs at he
    rcases List.mem_cons.mp he with rfl | he
    · exact ⟨(h f List.mem_cons_self).2, (h f List.mem_cons_self).1, Nat.two_pow_pos 32, hd, rfl⟩
    · exact ih (Nat.mod_lt _ (by decide)) (fun x hx => h x (List.mem_cons_of_mem _ hx)) e he

theorem es_ok {t : Track} (h : ∀ f ∈ t.frames, f.size < 2 ^ 32 ∧ f.dur < 2 ^ 32 ∧ f.delay < 2 ^ 32) : ∀ e ∈ t.es, EntryOk t.kind e := by
  unfold Track.es
  cases hk : t.kind with
  | video =>
    intro e he
    obtain ⟨f, hf, rfl⟩ := List.mem_map.mp he
    obtain ⟨h1, h2, h3⟩ := h f hf
    exact ⟨h2, h1, by simp only; split <;> decide, u32_lt _, trivial⟩
  | audio =>
    intro e he
    obtain ⟨f, hf, rfl⟩ := List.mem_map.mp he
    obtain ⟨h1, h2, h3⟩ := h f hf
    exact ⟨h2, h1, Nat.two_pow_pos 32, Nat.two_pow_pos 32, rfl, rfl⟩
  | cue => exact cueEs_ok (by decide) fun f hf => ⟨(h f hf).1, (h f hf).2.2⟩

/-! ## Boxes of a track -/

theorem zip_arg (k : Kind) (offs : List Nat) (es : List Entry) :
    offs.zip ((es.map (·.size)).zip (es.map (encEntry k))) = (offs.zip es).map (arg k) := by
  induction offs generalizing es with
  | nil => rfl
  | cons o offs ih =>
    cases es with
    | nil => rfl
    | cons e es => simp only [List.map_cons, List.zip_cons_cons, ih]; rfl

/-- The frames of a track at offsets. -/
def Track.at (t : Track) (offs : List Nat) : List (Nat × Entry) := offs.zip t.es

/-- The runs of a track. -/
def Track.runs (t : Track) (offs : List Nat) : List (Nat × List Entry) := Fmp4.runs none 0 (t.at offs)

theorem truns_boxes {base : Nat} {t : Track} {offs : List Nat} (hb : ∀ x ∈ t.at offs, x.1 + x.2.size < 2 ^ 32) :
    truns base t offs = enc (runBoxes t.kind base (t.runs offs)) := by
  unfold truns
  rw [entries_es, ← es_size, zip_arg]
  exact truns_runs hb

def tfhdBody (id sdi : Nat) : Bytes := if 0 < sdi then be32 0x020002 ++ be32 id ++ be32 sdi else be32 0x020000 ++ be32 id
def tfdtBody (t : Nat) : Bytes := be32 0x01000000 ++ be64 t

theorem tfhdBody_length (id sdi : Nat) : 8 + (tfhdBody id sdi).length = if 0 < sdi then 20 else 16 := by
  unfold tfhdBody; split <;> rfl

theorem tfhd_box (id sdi : Nat) : tfhd id sdi = enc [(name 't' 'f' 'h' 'd', tfhdBody id sdi)] := by
  unfold tfhd enc
  rw [List.flatMap_cons, List.flatMap_nil, List.append_nil]
  simp only [tfhdBody_length]
  unfold tfhdBody
  split <;> simp only [List.append_assoc]

theorem tfdt_box (t : Nat) : tfdt t = enc [(name 't' 'f' 'd' 't', tfdtBody t)] := by
  unfold tfdt enc
  rw [List.flatMap_cons, List.flatMap_nil, List.append_nil]
  show _ = atom 20 _ ++ _
  simp only [tfdtBody, List.append_assoc]

/-- The boxes of a `traf`. -/
def trafBoxes (base sdi : Nat) (ex : List (Bytes × Bytes)) (i : Nat) (t : Track) (offs : List Nat) : List (Bytes × Bytes) :=
  (name 't' 'f' 'h' 'd', tfhdBody (i + 1) sdi) :: (name 't' 'f' 'd' 't', tfdtBody t.earliest) :: (runBoxes t.kind base (t.runs offs) ++ ex)

theorem traf_box {base sdi i : Nat} {ex : List (Bytes × Bytes)} {t : Track} {offs : List Nat} (hb : ∀ x ∈ t.at offs, x.1 + x.2.size < 2 ^ 32) :
    traf base sdi (enc ex) i t offs = enc [(name 't' 'r' 'a' 'f', enc (trafBoxes base sdi ex i t offs))] := by
  have : tfhd (i + 1) sdi ++ tfdt t.earliest ++ truns base t offs ++ enc ex = enc (trafBoxes base sdi ex i t offs) := by
    rw [tfhd_box, tfdt_box, truns_boxes hb, ← enc_append, ← enc_append, ← enc_append]
    unfold trafBoxes
    simp only [List.cons_append, List.nil_append]
  unfold traf
  simp only [this]
  show _ = _ ++ _ ++ []
  rw [List.append_nil]

/-- The boxes `traf` of the tracks from `k` on, for an order of frames. -/
def trafL (base sdi : Nat) (ex : List (Bytes × Bytes)) (o : List (Nat × Frame)) : Nat → List Track → List (Bytes × Bytes)
  | _, [] => []
  | k, t :: ts => (name 't' 'r' 'a' 'f', enc (trafBoxes base sdi ex k t (offsOf k 0 o))) :: trafL base sdi ex o (k + 1) ts

theorem trafs_boxes {base sdi : Nat} {ex : List (Bytes × Bytes)} {o : List (Nat × Frame)} {k : Nat} {ts : List Track} {ss : List Str}
    (hl : ss.length = ts.length) (hs : ∀ j (s : Str), ss[j]? = some s → s.offs = offsOf (k + j) 0 o)
    (hb : ∀ j (t : Track), ts[j]? = some t → ∀ x ∈ t.at (offsOf (k + j) 0 o), x.1 + x.2.size < 2 ^ 32) :
    trafs base sdi (enc ex) k ts ss = enc (trafL base sdi ex o k ts) := by
  induction ts generalizing k ss with
  | nil => unfold trafs; rfl
  | cons t ts ih =>
    cases ss with
    | nil => cases hl
    | cons s ss =>
      rw [trafs, hs 0 s rfl, trafL, enc_cons, traf_box (hb 0 t rfl), ih (by simpa using hl)]
      · show _ ++ _ ++ [] ++ _ = _
        rw [List.append_nil]
        rfl
      · intro j s' h
        rw [hs (j + 1) s' h, Nat.add_assoc, Nat.add_comm 1 j]
      · intro j t' h
        have := hb (j + 1) t' h
        rwa [Nat.add_assoc, Nat.add_comm 1 j]

/-! ## Sizes -/

theorem spread_length (o : Nat) (es : List Entry) : (spread o es).length = es.length := by
  induction es generalizing o with
  | nil => rfl
  | cons e es ih => simp only [spread, List.length_cons, ih]

theorem runBoxes_length (k : Kind) (base : Nat) (gs : List (Nat × List Entry)) :
    (enc (runBoxes k base gs)).length = 20 * gs.length + k.entrySize * (gs.flatMap fun g => spread g.1 g.2).length := by
  induction gs with
  | nil => rfl
  | cons g gs ih =>
    show (enc ((_, _) :: runBoxes k base gs)).length = _
    rw [enc_cons, List.length_append, List.length_append, atom_length rfl, ih, runBody_length, List.flatMap_cons, List.length_append,
      List.length_cons, spread_length, Nat.mul_add k.entrySize]
    omega

/-- The frames are at the places of the order. -/
theorem at_places {t : Track} {o : List (Nat × Frame)} {i : Nat} (h : ofStream i o = t.frames) :
    (t.at (offsOf i 0 o)).map (fun x => (x.1, x.2.size)) = places i 0 o := by
  unfold Track.at places
  rw [h, ← es_size]
  generalize offsOf i 0 o = offs
  generalize t.es = es
  induction offs generalizing es with
  | nil => rfl
  | cons x offs ih =>
    cases es with
    | nil => rfl
    | cons e es => simp only [List.map_cons, List.zip_cons_cons, ih]

theorem at_length {t : Track} {o : List (Nat × Frame)} {i : Nat} (h : ofStream i o = t.frames) :
    (t.at (offsOf i 0 o)).length = t.frames.length := by
  unfold Track.at
  rw [List.length_zip, offsOf_length, h, es_length, Nat.min_self]

theorem at_bound {t : Track} {o : List (Nat × Frame)} {i : Nat} (h : ofStream i o = t.frames) :
    ∀ x ∈ t.at (offsOf i 0 o), x.1 + x.2.size ≤ bytesOf o := by
  intro x hx
  have : (x.1, x.2.size) ∈ places i 0 o := by
    rw [← at_places h]; exact List.mem_map.mpr ⟨x, hx, rfl⟩
  have := (places_bound _ this).2
  omega

theorem trafBoxes_length {base sdi i : Nat} {ex : List (Bytes × Bytes)} {t : Track} {o : List (Nat × Frame)} (h : ofStream i o = t.frames) :
    (enc (trafBoxes base sdi ex i t (offsOf i 0 o))).length
      = (if 0 < sdi then 20 else 16) + 20 + 20 * starts none (places i 0 o) + t.frames.length * t.kind.entrySize + (enc ex).length := by
  unfold trafBoxes
  rw [enc_cons, enc_cons, enc_append]
  simp only [List.length_append, atom_length (name_length _ _ _ _), runBoxes_length]
  unfold Track.runs
  rw [spread_all, runs_length, at_places h, at_length h, Nat.mul_comm t.frames.length]
  have := tfhdBody_length (i + 1) sdi
  have h2 : (tfdtBody t.earliest).length = 12 := rfl
  omega

theorem trafL_length {base sdi : Nat} {ex : List (Bytes × Bytes)} {o : List (Nat × Frame)} {k : Nat} {ts : List Track}
    (h : ∀ j (t : Track), ts[j]? = some t → ofStream (k + j) o = t.frames) :
    (enc (trafL base sdi ex o k ts)).length
      = (8 + (if 0 < sdi then 20 else 16) + (8 + 12) + (enc ex).length) * ts.length + 20 * allStarts 0 o k (ts.map Str.init)
        + (ts.map fun t => t.frames.length * t.kind.entrySize).sum := by
  induction ts generalizing k with
  | nil => rfl
  | cons t ts ih =>
    rw [trafL, enc_cons, List.length_append, List.length_append, atom_length rfl, ih, List.map_cons, allStarts]
    · simp only
      have h0 : ofStream k o = t.frames := h 0 t rfl
      rw [trafBoxes_length h0, List.length_cons, List.map_cons, List.sum_cons, Nat.mul_succ]
      show _ = _ + 20 * (starts none _ + _) + _
      omega
    · intro j t' hj
      rw [← h (j + 1) t' hj, Nat.add_assoc, Nat.add_comm 1 j]

/-! ## The layout of a segment -/

/-- The order of the frames of a segment. -/
def Seg.order (g : Seg) : List (Nat × Frame) := Fmp4.order (framesLeft (g.tracks.map Cur.init)) none (g.tracks.map Cur.init)

theorem ofStream_order {g : Seg} {i : Nat} {t : Track} (h : g.tracks[i]? = some t) : ofStream i g.order = t.frames := by
  unfold Seg.order
  rw [order_complete (Nat.le_refl _)]
  simp [h, Cur.init]

theorem map_init (ts : List Track) : (ts.map Str.init).map (·.cur) = ts.map Cur.init := by
  rw [List.map_map]; rfl

theorem layout_facts {g : Seg} (hb : bytesOf g.order < uintMax) :
    (∀ i t, g.tracks[i]? = some t → ∃ s, (layout g).strs[i]? = some s ∧ s.offs = offsOf i 0 g.order ∧
      s.cur.next = t.frames.foldl (fun d f => (d + f.dur) % 2 ^ 64) (u64 t.start)) ∧
    (layout g).strs.length = g.tracks.length ∧ (layout g).off = bytesOf g.order ∧
    (layout g).truns = allStarts 0 g.order 0 (g.tracks.map Str.init) := by
  have := run_layout (n := framesLeft ((g.tracks.map Str.init).map (·.cur))) (l := ⟨g.tracks.map Str.init, none, 0, 0⟩) (Nat.le_refl _)
    (by rw [map_init, Nat.zero_add]; exact hb)
    (by
      intro s hs
      obtain ⟨t, _, rfl⟩ := List.mem_map.mp hs
      exact ⟨fun _ => rfl, fun o ho => by cases ho⟩)
  rw [map_init] at this
  obtain ⟨h1, h2, h3, h4⟩ := this
  have hl : layout g = Lay.run (framesLeft (g.tracks.map Cur.init)) ⟨g.tracks.map Str.init, none, 0, 0⟩ := by
    unfold layout
    simp only [map_init]
  rw [hl]
  refine ⟨?_, by rw [h2]; simp, by rw [h3, Nat.zero_add]; rfl, by rw [h4, Nat.zero_add]; rfl⟩
  intro i t ht
  obtain ⟨s, h5, h6, h7⟩ := h1 i (Str.init t) (by simp [ht])
  exact ⟨s, h5, h6, h7⟩

theorem starts_le (e : Option Nat) (l : List (Nat × Nat)) : starts e l ≤ l.length := by
  induction l generalizing e with
  | nil => exact Nat.le_refl _
  | cons x l ih =>
    obtain ⟨o, n⟩ := x
    unfold starts
    have := ih (some (o + n))
    rw [List.length_cons]
    split <;> omega

/-! ## The response -/

/-- What is before the `moof`. -/
def preL (g : Seg) (sdi xs : Nat) : List (Bytes × Bytes) :=
  (if g.tracks.length = 1 then
    [(name 's' 't' 'y' 'p', name 'm' 's' 'd' 'h' ++ be32 0 ++ name 'm' 's' 'd' 'h' ++ name 'm' 's' 'i' 'x')] else []) ++
  (match g.tracks with
    | t :: _ =>
      if g.info ≠ [] ∧ t.frames ≠ [] then
        [(name 'e' 'm' 's' 'g', be32 0x01000000 ++ be32 t.timescale ++ be64 t.start.toNat ++ be32 1 ++
          be32 g.index ++ scheme ++ [0] ++ [0] ++ (Mts.id3Header g.info.length ++ g.info))]
      else []
    | [] => []) ++
  (match g.tracks with
    | [t] =>
      [(name 's' 'i' 'd' 'x',
        if uintMax < t.earliest then
          be32 0x01000000 ++ be32 1 ++ be32 t.timescale ++ be64 t.earliest ++ be64 0 ++ be32 1 ++
            be32 (moofSize g sdi xs (layout g).truns + ((layout g).off + 8)) ++ be32 (totalDur g) ++ be32 0x90000000
        else
          be32 0 ++ be32 1 ++ be32 t.timescale ++ be32 t.earliest ++ be32 0 ++ be32 1 ++
            be32 (moofSize g sdi xs (layout g).truns + ((layout g).off + 8)) ++ be32 (totalDur g) ++ be32 0x90000000)]
    | _ => [])

/-- The content of the `moof`. -/
def moofL (g : Seg) (sdi xs : Nat) (ex : List (Bytes × Bytes)) : List (Bytes × Bytes) :=
  (name 'm' 'f' 'h' 'd', be32 0 ++ be32 g.index) :: trafL (moofSize g sdi xs (layout g).truns + 8) sdi ex g.order 0 g.tracks

/-- The size of the `moof` is right. -/
theorem moofSize_eq {g : Seg} {sdi xs : Nat} {ex : List (Bytes × Bytes)} (hb : bytesOf g.order < uintMax) (hx : (enc ex).length = xs) :
    moofSize g sdi xs (layout g).truns = 8 + (enc (moofL g sdi xs ex)).length := by
  obtain ⟨_, _, _, h4⟩ := layout_facts hb
  unfold moofL
  rw [enc_cons, List.length_append, List.length_append, atom_length rfl, trafL_length, ← h4, hx]
  · unfold moofSize
    simp only [List.length_append, be32_length]
    omega
  · intro j t hj
    rw [Nat.zero_add]
    exact ofStream_order hj

theorem moof_box {g : Seg} {sdi xs : Nat} {ex : List (Bytes × Bytes)} (hb : bytesOf g.order < uintMax) (hx : (enc ex).length = xs) :
    atom (moofSize g sdi xs (layout g).truns) (name 'm' 'o' 'o' 'f') ++ mfhd g.index ++
        trafs (moofSize g sdi xs (layout g).truns + 8) sdi (enc ex) 0 g.tracks (layout g).strs
      = enc [(name 'm' 'o' 'o' 'f', enc (moofL g sdi xs ex))] := by
  obtain ⟨h1, h2, h3, h4⟩ := layout_facts hb
  rw [enc_cons]
  simp only
  rw [← moofSize_eq hb hx]
  rw [trafs_boxes (o := g.order) h2]
  · unfold moofL
    rw [enc_cons]
    show _ = _ ++ _ ++ []
    rw [List.append_nil, List.append_assoc]
    congr 1
  · intro j s hs
    rw [Nat.zero_add]
    have hj : j < g.tracks.length := by rw [← h2]; exact (List.getElem?_eq_some_iff.mp hs).1
    obtain ⟨s', h5, h6, _⟩ := h1 j g.tracks[j] (List.getElem?_eq_getElem hj)
    rw [h5] at hs
    injection hs with hs
    rw [← hs, h6]
  · intro j t ht x hx
    rw [Nat.zero_add] at hx
    have := at_bound (ofStream_order ht) x hx
    have : uintMax < 2 ^ 32 := by decide
    omega

theorem scheme_length : scheme.length = 46 := by decide +kernel

theorem pre_bytes (g : Seg) (sdi xs : Nat) :
    (if 0 < (sizes g sdi xs).1 then styp else []) ++
    (match g.tracks with
      | t :: _ => if 0 < (sizes g sdi xs).2.1 then emsg (sizes g sdi xs).2.1 g.index t g.info else []
      | [] => []) ++
    (match g.tracks with
      | t :: _ => if 0 < (sizes g sdi xs).2.2.1 then
          sidx t.timescale t.earliest ((sizes g sdi xs).2.2.2.1 + (sizes g sdi xs).2.2.2.2) (totalDur g) else []
      | [] => []) = enc (preL g sdi xs) := by
  unfold preL
  rw [enc_append, enc_append]
  congr 1
  · congr 1
    · unfold sizes
      simp only
      split
      · rfl
      · rfl
    · unfold sizes
      cases g.tracks with
      | nil => rfl
      | cons t ts =>
        simp only
        by_cases h : g.info ≠ [] ∧ t.frames ≠ []
        · rw [if_pos h, if_pos (by omega), if_pos h]
          unfold emsg
          rw [enc_cons]
          show _ = _ ++ _ ++ []
          rw [List.append_nil]
          have : 8 + (be32 0x01000000 ++ be32 t.timescale ++ be64 t.start.toNat ++ be32 1 ++
              be32 g.index ++ scheme ++ [0] ++ [0] ++ (Mts.id3Header g.info.length ++ g.info)).length = 8 + 24 + 47 + 1 + 21 + g.info.length := by
            simp only [List.length_append, be32_length, be64_length, scheme_length, List.length_cons, List.length_nil]
            show _ + _ = _
            have : (Mts.id3Header g.info.length).length = 21 := rfl
            omega
          simp only
          rw [this]
          simp only [List.append_assoc]
        · rw [if_neg h, if_neg (by omega), if_neg h]
          rfl
  · unfold sizes
    cases g.tracks with
    | nil => rfl
    | cons t ts =>
      cases ts with
      | cons _ _ => rfl
      | nil =>
        simp only
        unfold sidx
        rw [if_pos (by omega), enc_cons]
        show _ = _ ++ _ ++ []
        rw [List.append_nil]
        split
        · show _ = atom 52 _ ++ _
          simp only [List.append_assoc]
        · show _ = atom 44 _ ++ _
          simp only [List.append_assoc]

/-- The header is boxes, and the start of the last one. -/
theorem headerBytes_eq {g : Seg} {sdi xs : Nat} {ex : Nat → List (Bytes × Bytes)} (hb : bytesOf g.order < uintMax)
    (hx : ∀ m, (enc (ex m)).length = xs) :
    headerBytes g sdi xs (fun m => enc (ex m))
      = enc (preL g sdi xs ++ [(name 'm' 'o' 'o' 'f', enc (moofL g sdi xs (ex (moofSize g sdi xs (layout g).truns))))]) ++
        atom ((layout g).off + 8) (name 'm' 'd' 'a' 't') := by
  rw [enc_append, ← pre_bytes, ← moof_box hb (hx _)]
  rfl

theorem preL_length (g : Seg) (sdi xs : Nat) : (enc (preL g sdi xs)).length = (sizes g sdi xs).1 + (sizes g sdi xs).2.1 + (sizes g sdi xs).2.2.1 := by
  rw [← pre_bytes, List.length_append, List.length_append]
  congr 1
  · congr 1
    · unfold sizes
      simp only
      split <;> rfl
    · unfold sizes
      cases g.tracks with
      | nil => rfl
      | cons t ts =>
        simp only
        by_cases h : g.info ≠ [] ∧ t.frames ≠ []
        · rw [if_pos h, if_pos (by omega)]
          unfold emsg
          simp only [List.length_append, be32_length, be64_length, scheme_length, List.length_cons, List.length_nil, atom_length (name_length _ _ _ _)]
          have : (Mts.id3Header g.info.length).length = 21 := rfl
          omega
        · rw [if_neg h, if_neg (by omega)]
          rfl
  · unfold sizes
    cases g.tracks with
    | nil => rfl
    | cons t ts =>
      cases ts with
      | cons _ _ => rfl
      | nil =>
        simp only
        unfold sidx
        rw [if_pos (by omega)]
        split <;> rfl

/-- The header has the size that was computed: it does not go over its buffer. -/
theorem header_ok {g : Seg} {sdi xs : Nat} {ex : Nat → List (Bytes × Bytes)} (hb : bytesOf g.order < uintMax)
    (hx : ∀ m, (enc (ex m)).length = xs) :
    header g sdi xs (fun m => enc (ex m)) = .ok (headerBytes g sdi xs fun m => enc (ex m)) := by
  have hlen : (headerBytes g sdi xs fun m => enc (ex m)).length
      = (sizes g sdi xs).1 + (sizes g sdi xs).2.1 + (sizes g sdi xs).2.2.1 + (sizes g sdi xs).2.2.2.1 + 8 := by
    rw [headerBytes_eq hb hx, List.length_append, enc_append, List.length_append, preL_length, enc_cons, List.length_append,
      List.length_append, atom_length rfl, atom_length rfl]
    simp only
    rw [← moofSize_eq hb (hx _)]
    rfl
  have : ∀ n : Nat, n = (sizes g sdi xs).1 + (sizes g sdi xs).2.1 + (sizes g sdi xs).2.2.1 + (sizes g sdi xs).2.2.2.1 + 8 →
      (if n < (headerBytes g sdi xs fun m => enc (ex m)).length then Res.ub
        else if (headerBytes g sdi xs fun m => enc (ex m)).length ≠ n then Res.err
        else .ok (headerBytes g sdi xs fun m => enc (ex m))) = .ok (headerBytes g sdi xs fun m => enc (ex m)) := by
    intro n hn
    rw [hlen, if_neg (by omega), if_neg (by omega)]
  exact this _ rfl

/-- The response is boxes. -/
theorem response_eq (mem : Nat → UInt8) {g : Seg} (hb : bytesOf g.order < uintMax)
    (ha : ∀ t ∈ g.tracks, (t.frames.map (·.size)).sum ≤ t.avail) :
    response mem g = .ok (enc (preL g 1 0 ++ [(name 'm' 'o' 'o' 'f', enc (moofL g 1 0 [])),
      (name 'm' 'd' 'a' 't', dataOf mem (g.tracks.map (·.addr)) g.order)])) := by
  have hd : ∃ d, data false false g = .ok d ∧ (d.flatMap fun w => bytesAt mem w.2.1 w.2.2) = dataOf mem (g.tracks.map (·.addr)) g.order := by
    have hm : (g.tracks.map Rd.init).map (·.cur) = g.tracks.map Cur.init := by rw [List.map_map]; rfl
    have hp : (g.tracks.map Rd.init).map (·.pos) = g.tracks.map (·.addr) := by rw [List.map_map]; rfl
    obtain ⟨w, h1, h2, h3, h4⟩ := process_ok mem false (n := framesLeft ((g.tracks.map Rd.init).map (·.cur))) (sel := none)
      (ss := g.tracks.map Rd.init) (w := ⟨none, []⟩) (Nat.le_refl _)
      (by intro s hs; obtain ⟨t, ht, rfl⟩ := List.mem_map.mp hs; exact ha t ht) (by simp)
    refine ⟨w.out, ?_, ?_⟩
    · unfold data
      simp only [h1]
      rfl
    · have hbuf : w.buf = none := by
        by_cases ho : Fmp4.order (framesLeft ((g.tracks.map Rd.init).map (·.cur))) none ((g.tracks.map Rd.init).map (·.cur)) = []
        · rw [h3 ho]
        · exact h4 ho
      rw [hm, hp] at h2
      unfold Wr.content at h2
      rw [hbuf] at h2
      simpa [Seg.order] using h2
  obtain ⟨d, h1, h2⟩ := hd
  have hh := header_ok (g := g) (sdi := 1) (xs := 0) (ex := fun _ => []) hb (fun _ => rfl)
  have he := headerBytes_eq (g := g) (sdi := 1) (xs := 0) (ex := fun _ => []) hb (fun _ => rfl)
  obtain ⟨_, _, h5, _⟩ := layout_facts hb
  unfold response
  have hh' : header g 1 0 (fun _ => []) = .ok (headerBytes g 1 0 fun _ => []) := hh
  rw [hh', h1]
  show Res.ok (_ ++ _) = _
  rw [h2]
  congr 1
  have he' : headerBytes g 1 0 (fun _ => []) = _ := he
  rw [he', h5, enc_append, enc_append]
  show _ = _ ++ (_ ++ _ ++ (_ ++ _ ++ []))
  rw [dataOf_length, Nat.add_comm 8 (bytesOf _), List.append_nil]
  show _ ++ (_ ++ _ ++ []) ++ _ ++ _ = _
  simp only [List.append_assoc, List.append_nil]

end Verif.Fmp4
