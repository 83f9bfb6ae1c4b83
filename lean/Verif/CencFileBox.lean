import Verif.CencFile
import Verif.CencFileSpec
import Verif.CencProps
import Verif.Fmp4Props

/-!
# The boxes of encrypted segments

What a reader finds in a segment of one track with the boxes `saiz`, `saio` and `senc`.
-/

namespace Verif.CencFile

open Fmp4 (Bytes Seg Track Frame be32 atom name enc toBoxes trafBoxes fileL preL moofL moofSize layout bytesOf offsOf places uintMax)
open Fmp4Spec (num slice Box allBoxes kind the Sample readSegment cut)
open CencFileSpec

/-! ## One track -/

theorem order_idx {n : Nat} {sel : Option Nat} {cs : List Fmp4.Cur} : ∀ x ∈ Fmp4.order n sel cs, x.1 < cs.length := by
  induction n generalizing sel cs with
  | zero => intro x hx; cases hx
  | succ n ih =>
    intro x hx
    rw [Fmp4.order] at hx
    split at hx
    · cases hx
    · rename_i i _
      split at hx
      · cases hx
      · rename_i c hc
        have hi := (List.getElem?_eq_some_iff.mp hc).1
        split at hx
        · cases hx
        · rcases List.mem_cons.mp hx with rfl | hx
          · exact hi
          · have := ih x hx
            rwa [List.length_set] at this

theorem zero_map {o : List (Nat × Frame)} (h : ∀ x ∈ o, x.1 = 0) : o = (Fmp4.ofStream 0 o).map fun f => (0, f) := by
  induction o with
  | nil => rfl
  | cons x o ih =>
    obtain ⟨i, f⟩ := x
    have h0 : i = 0 := h (i, f) List.mem_cons_self
    subst h0
    rw [Fmp4.ofStream_cons_self, List.map_cons, ← ih fun x hx => h x (List.mem_cons_of_mem _ hx)]

/-- The frames of a segment of one track are written in their order. -/
theorem order_one {g : Seg} {t : Track} (hg : g.tracks = [t]) : g.order = t.frames.map fun f => (0, f) := by
  have h := Fmp4.ofStream_order (g := g) (i := 0) (t := t) (by rw [hg]; rfl)
  rw [← h]
  apply zero_map
  intro x hx
  have := order_idx x hx
  rw [hg] at this
  simp only [List.map_cons, List.map_nil, List.length_cons, List.length_nil] at this
  omega

theorem bytes_one {g : Seg} {t : Track} (hg : g.tracks = [t]) : bytesOf g.order = (t.frames.map (·.size)).sum := by
  rw [order_one hg]
  unfold bytesOf
  rw [List.map_map]
  rfl

theorem total_one {g : Seg} {t : Track} (hg : g.tracks = [t]) (xs : Nat) : Fmp4.totalSize g 0 xs + 4 = Fmp4.totalSize g 1 0 + xs := by
  unfold Fmp4.totalSize Fmp4.sizes moofSize
  simp only [hg, List.length_cons, List.length_nil]
  simp only [Nat.zero_add, Nat.mul_one, Nat.lt_irrefl, if_false, Nat.zero_lt_one, if_true]
  omega

/-- The pieces of the data of a track. -/
theorem places_one {fs : List Frame} {D : List Bytes} (pre post : Bytes) (h : D.map List.length = fs.map (·.size)) :
    (places 0 pre.length (fs.map fun f => (0, f))).map (fun x => slice (pre ++ D.flatten ++ post) x.1 x.2) = D := by
  induction fs generalizing D pre with
  | nil =>
    cases D with
    | nil => rfl
    | cons _ _ => simp at h
  | cons f fs ih =>
    cases D with
    | nil => simp at h
    | cons d D =>
      simp only [List.map_cons, List.cons.injEq] at h
      rw [List.map_cons, Fmp4.places_cons_self, List.map_cons]
      have e : pre ++ (d :: D).flatten ++ post = (pre ++ d) ++ D.flatten ++ post := by simp
      have := ih (pre ++ d) h.2
      rw [List.length_append, h.1] at this
      rw [e, this]
      congr 1
      unfold slice
      rw [List.append_assoc, List.append_assoc, List.drop_left, ← h.1, List.take_left]

theorem cut_flatten (mem : Nat → UInt8) (p : Nat) (ns : List Nat) : (cut mem p ns).flatten = Fmp4.bytesAt mem p ns.sum := by
  induction ns generalizing p with
  | nil => rfl
  | cons n ns ih => rw [cut, List.flatten_cons, ih, List.sum_cons, Fmp4.bytesAt_add]; rfl

theorem cut_lengths (mem : Nat → UInt8) (p : Nat) (ns : List Nat) : (cut mem p ns).map List.length = ns := by
  induction ns generalizing p with
  | nil => rfl
  | cons n ns ih => rw [cut, List.map_cons, ih]; simp

theorem dataOf_one (mem : Nat → UInt8) (p : Nat) (fs : List Frame) :
    Fmp4.dataOf mem [p] (fs.map fun f => (0, f)) = (cut mem p (fs.map (·.size))).flatten := by
  induction fs generalizing p with
  | nil => rfl
  | cons f fs ih =>
    rw [List.map_cons, Fmp4.dataOf, List.map_cons, cut, List.flatten_cons]
    show Fmp4.bytesAt mem p f.size ++ Fmp4.dataOf mem [p + f.size] _ = _
    rw [ih]
    rfl

/-- The calls of the writer have the data of the frames. -/
theorem calls_ok (mem : Nat → UInt8) {g : Seg} {t : Track} (hg : g.tracks = [t]) (h : g.Fits) :
    ∃ cs, calls mem g = .ok cs ∧ cs.flatten = (cut mem t.addr (t.frames.map (·.size))).flatten := by
  have hm : (g.tracks.map Fmp4.Rd.init).map (·.cur) = g.tracks.map Fmp4.Cur.init := by rw [List.map_map]; rfl
  have hp : (g.tracks.map Fmp4.Rd.init).map (·.pos) = g.tracks.map (·.addr) := by rw [List.map_map]; rfl
  obtain ⟨w, h1, h2, h3, h4⟩ := Fmp4.process_ok mem true (n := Fmp4.framesLeft ((g.tracks.map Fmp4.Rd.init).map (·.cur))) (sel := none)
    (ss := g.tracks.map Fmp4.Rd.init) (w := ⟨none, []⟩) (Nat.le_refl _)
    (by intro s hs; obtain ⟨t, ht, rfl⟩ := List.mem_map.mp hs; exact h.avail t ht) (fun _ => rfl)
  refine ⟨w.out.map fun w => Fmp4.bytesAt mem w.2.1 w.2.2, ?_, ?_⟩
  · unfold calls Fmp4.data
    simp only [h1]
    rfl
  · have hbuf : w.buf = none := by
      by_cases ho : Fmp4.order (Fmp4.framesLeft ((g.tracks.map Fmp4.Rd.init).map (·.cur))) none ((g.tracks.map Fmp4.Rd.init).map (·.cur)) = []
      · rw [h3 ho]
      · exact h4 ho
    rw [hm, hp] at h2
    unfold Fmp4.Wr.content at h2
    rw [hbuf] at h2
    have h5 : (w.out.flatMap fun x => Fmp4.bytesAt mem x.2.1 x.2.2) = Fmp4.dataOf mem (g.tracks.map (·.addr)) g.order := by
      simpa [Fmp4.Seg.order] using h2
    rw [order_one hg, hg] at h5
    rw [← List.flatMap_def, h5]
    exact dataOf_one mem t.addr t.frames

/-! ## Boxes -/

/-- The boxes of encryption. -/
def exL (z : UInt8 × Nat × Bytes) (off flags n : Nat) (aux : Bytes) : List (Bytes × Bytes) :=
  [(name 's' 'a' 'i' 'z', be32 0 ++ [z.1] ++ be32 z.2.1 ++ z.2.2), (name 's' 'a' 'i' 'o', be32 0 ++ be32 1 ++ be32 off),
    (name 's' 'e' 'n' 'c', be32 flags ++ be32 n ++ aux)]

theorem exL_bytes (z : UInt8 × Nat × Bytes) (off flags n : Nat) (aux : Bytes) :
    enc (exL z off flags n aux) = saizAtom z ++ saioAtom off ++ sencAtom flags n aux := by
  unfold exL saizAtom saioAtom sencAtom
  rw [Fmp4.enc_cons, Fmp4.enc_cons, Fmp4.enc_cons]
  have e1 : 8 + (be32 0 ++ [z.1] ++ be32 z.2.1 ++ z.2.2).length = 17 + z.2.2.length := by
    simp only [List.length_append, Fmp4.be32_length, List.length_cons, List.length_nil]; omega
  have e2 : 8 + (be32 flags ++ be32 n ++ aux).length = 16 + aux.length := by
    simp only [List.length_append, Fmp4.be32_length]; omega
  simp only [e1, e2]
  show _ ++ (_ ++ (_ ++ [])) = _
  simp only [List.append_assoc, List.append_nil]
  rfl

theorem exL_length (z : UInt8 × Nat × Bytes) (off flags n : Nat) (aux : Bytes) :
    (enc (exL z off flags n aux)).length = 17 + z.2.2.length + 20 + 16 + aux.length := by
  rw [exL_bytes]
  unfold saizAtom saioAtom sencAtom
  simp only [List.length_append, Fmp4.atom_length (Fmp4.name_length _ _ _ _), Fmp4.be32_length, List.length_cons, List.length_nil]
  omega

theorem exL_names (z : UInt8 × Nat × Bytes) (off flags n : Nat) (aux : Bytes) : ∀ x ∈ exL z off flags n aux, x.1.length = 4 ∧ x.1 ≠ kind "trun" := by
  have k1 : (name 's' 'a' 'i' 'z').length = 4 ∧ name 's' 'a' 'i' 'z' ≠ kind "trun" := by decide +kernel
  have k2 : (name 's' 'a' 'i' 'o').length = 4 ∧ name 's' 'a' 'i' 'o' ≠ kind "trun" := by decide +kernel
  have k3 : (name 's' 'e' 'n' 'c').length = 4 ∧ name 's' 'e' 'n' 'c' ≠ kind "trun" := by decide +kernel
  intro x hx
  unfold exL at hx
  rcases List.mem_cons.mp hx with rfl | hx
  · exact k1
  rcases List.mem_cons.mp hx with rfl | hx
  · exact k2
  rw [List.mem_singleton] at hx
  subst hx
  exact k3

/-- The header with the boxes of encryption is written, and the file is what `fileL` has. -/
theorem header_file {g : Seg} {t : Track} (hg : g.tracks = [t]) (h : g.Fits) (z : UInt8 × Nat × Bytes) (flags n : Nat) (aux : Bytes) (k : Nat)
    {d : Bytes} (hd : d.length = (t.frames.map (·.size)).sum) :
    ∃ b, Fmp4.header g 0 (17 + z.2.2.length + 20 + 16 + aux.length) (fun m => saizAtom z ++ saioAtom (m - k) ++ sencAtom flags n aux) = .ok b ∧
      b ++ d = enc (fileL g 0 (17 + z.2.2.length + 20 + 16 + aux.length)
        (exL z (moofSize g 0 (17 + z.2.2.length + 20 + 16 + aux.length) (layout g).truns - k) flags n aux) d) := by
  have hx : ∀ m, (enc (exL z (m - k) flags n aux)).length = 17 + z.2.2.length + 20 + 16 + aux.length := fun m => exL_length _ _ _ _ _
  have hh := Fmp4.header_ok (g := g) (sdi := 0) (ex := fun m => exL z (m - k) flags n aux) (Fmp4.fits_bytes h) hx
  have he := Fmp4.headerBytes_eq (g := g) (sdi := 0) (ex := fun m => exL z (m - k) flags n aux) (Fmp4.fits_bytes h) hx
  have hf : (fun m => saizAtom z ++ saioAtom (m - k) ++ sencAtom flags n aux) = fun m => enc (exL z (m - k) flags n aux) := by
    funext m
    rw [exL_bytes]
  rw [hf]
  refine ⟨_, hh, ?_⟩
  obtain ⟨_, _, h5, _⟩ := Fmp4.layout_facts (Fmp4.fits_bytes h)
  rw [he, h5, bytes_one hg, ← hd]
  unfold fileL
  rw [Fmp4.enc_append, Fmp4.enc_append]
  show _ ++ (_ ++ _ ++ []) ++ _ ++ _ = _ ++ (_ ++ _ ++ (_ ++ _ ++ []))
  rw [Nat.add_comm d.length 8]
  simp only [List.append_assoc, List.append_nil]

/-- The boxes of the track. -/
theorem firstTraf_file {g : Seg} {t : Track} (hg : g.tracks = [t]) {xs : Nat} {ex : List (Bytes × Bytes)} {d : Bytes} (hb : bytesOf g.order < uintMax)
    (hx : (enc ex).length = xs) (hd : d.length = bytesOf g.order) (hex : ∀ x ∈ ex, x.1.length = 4) (ht : Fmp4.totalSize g 0 xs < 2 ^ 31) :
    firstTraf (enc (fileL g 0 xs ex d)) = some ((enc (preL g 0 xs)).length,
      toBoxes 0 (trafBoxes (moofSize g 0 xs (layout g).truns + 8) 0 ex 0 t (offsOf 0 0 g.order))) := by
  have hlen := Fmp4.fileL_length (sdi := 0) hb hx hd
  have hmoof := Fmp4.moofSize_eq (sdi := 0) hb hx
  have hpre := Fmp4.preL_length g 0 xs
  have htot : Fmp4.totalSize g 0 xs = (enc (preL g 0 xs)).length + moofSize g 0 xs (layout g).truns + (bytesOf g.order + 8) := by
    rw [hpre]
    obtain ⟨_, _, h3, _⟩ := Fmp4.layout_facts hb
    rw [← h3]; rfl
  have hpn : ∀ x ∈ preL g 0 xs, x.1.length = 4 := fun x h => (Fmp4.preL_kind g 0 xs x h).1
  unfold firstTraf
  rw [Fmp4.allBoxes_enc (Fmp4.fileL_names g 0 xs ex d) (by rw [hlen]; omega)]
  show (the "moof" _ >>= fun m => _) = _
  have hbox : toBoxes 0 (fileL g 0 xs ex d) = toBoxes 0 (preL g 0 xs) ++
      [⟨(enc (preL g 0 xs)).length, name 'm' 'o' 'o' 'f', enc (moofL g 0 xs ex)⟩,
        ⟨(enc (preL g 0 xs)).length + moofSize g 0 xs (layout g).truns, name 'm' 'd' 'a' 't', d⟩] := by
    unfold fileL
    rw [Fmp4.toBoxes_append hpn, Nat.zero_add, hmoof]
    rfl
  have h1 : the "moof" (toBoxes 0 (fileL g 0 xs ex d)) = some ⟨(enc (preL g 0 xs)).length, name 'm' 'o' 'o' 'f', enc (moofL g 0 xs ex)⟩ := by
    unfold the
    rw [hbox, List.find?_append, Fmp4.find_none fun x h => (Fmp4.preL_kind g 0 xs x h).2.1, Option.none_or]
    exact Fmp4.find_pos Fmp4.kind_moof
  rw [h1]
  show (allBoxes 0 (enc (moofL g 0 xs ex)) >>= fun m => _) = _
  have hm : moofL g 0 xs ex = [(name 'm' 'f' 'h' 'd', be32 0 ++ be32 g.index),
      (name 't' 'r' 'a' 'f', enc (trafBoxes (moofSize g 0 xs (layout g).truns + 8) 0 ex 0 t (offsOf 0 0 g.order)))] := by
    unfold moofL
    rw [hg]
    rfl
  have hml : (enc (moofL g 0 xs ex)).length < 2 ^ 31 := by omega
  have htl : (enc (trafBoxes (moofSize g 0 xs (layout g).truns + 8) 0 ex 0 t (offsOf 0 0 g.order))).length ≤ (enc (moofL g 0 xs ex)).length := by
    apply Fmp4.mem_enc_length (x := (name 't' 'r' 'a' 'f', enc (trafBoxes (moofSize g 0 xs (layout g).truns + 8) 0 ex 0 t (offsOf 0 0 g.order))))
    rw [hm]
    exact List.mem_cons_of_mem _ List.mem_cons_self
  rw [Fmp4.allBoxes_enc (by rw [hm]; intro x hx; rcases List.mem_cons.mp hx with rfl | hx; rfl; rw [List.mem_singleton] at hx; subst hx; rfl) (by omega)]
  show (the "traf" _ >>= fun m => _) = _
  have h2 : ∃ p, the "traf" (toBoxes 0 (moofL g 0 xs ex)) = some ⟨p, name 't' 'r' 'a' 'f',
      enc (trafBoxes (moofSize g 0 xs (layout g).truns + 8) 0 ex 0 t (offsOf 0 0 g.order))⟩ := by
    have kt : name 't' 'r' 'a' 'f' = kind "traf" := by decide +kernel
    have kn : name 'm' 'f' 'h' 'd' ≠ kind "traf" := by decide +kernel
    rw [hm]
    apply Exists.intro
    unfold the
    rw [toBoxes, Fmp4.find_neg kn, toBoxes, Fmp4.find_pos kt]
  obtain ⟨p, h2⟩ := h2
  have h3 := Fmp4.allBoxes_enc (pos := 0) (Fmp4.trafBoxes_names (base := moofSize g 0 xs (layout g).truns + 8) (sdi := 0) (i := 0) (t := t) (offs := offsOf 0 0 g.order) hex)
    (show _ < 2 ^ 32 by omega)
  simp only [h2, h3, Option.bind_eq_bind, Option.bind_some]

theorem traf_kinds {base i : Nat} {t : Track} {offs : List Nat} {ex : List (Bytes × Bytes)} :
    ∃ l, trafBoxes base 0 ex i t offs = l ++ ex ∧ ∀ y ∈ l, y.1 = name 't' 'f' 'h' 'd' ∨ y.1 = name 't' 'f' 'd' 't' ∨ y.1 = name 't' 'r' 'u' 'n' := by
  refine ⟨(name 't' 'f' 'h' 'd', Fmp4.tfhdBody (i + 1) 0) :: (name 't' 'f' 'd' 't', Fmp4.tfdtBody t.earliest) :: Fmp4.runBoxes t.kind base (t.runs offs), rfl, ?_⟩
  intro y hy
  rcases List.mem_cons.mp hy with rfl | hy
  · exact .inl rfl
  rcases List.mem_cons.mp hy with rfl | hy
  · exact .inr (.inl rfl)
  unfold Fmp4.runBoxes at hy
  obtain ⟨r, _, rfl⟩ := List.mem_map.mp hy
  exact .inr (.inr rfl)

/-- The three boxes are found. -/
theorem the_ex {base i : Nat} {t : Track} {offs : List Nat} (z : UInt8 × Nat × Bytes) (off flags n : Nat) (aux : Bytes) :
    (∃ p, the "saiz" (toBoxes 0 (trafBoxes base 0 (exL z off flags n aux) i t offs)) = some ⟨p, name 's' 'a' 'i' 'z', be32 0 ++ [z.1] ++ be32 z.2.1 ++ z.2.2⟩) ∧
    (∃ p, the "saio" (toBoxes 0 (trafBoxes base 0 (exL z off flags n aux) i t offs)) = some ⟨p, name 's' 'a' 'i' 'o', be32 0 ++ be32 1 ++ be32 off⟩) ∧
    ∃ p, the "senc" (toBoxes 0 (trafBoxes base 0 (exL z off flags n aux) i t offs)) = some ⟨p, name 's' 'e' 'n' 'c', be32 flags ++ be32 n ++ aux⟩ := by
  obtain ⟨l, h1, h2⟩ := traf_kinds (base := base) (i := i) (t := t) (offs := offs) (ex := exL z off flags n aux)
  rw [h1]
  have h4 : ∀ y ∈ l, y.1.length = 4 := by
    intro y hy
    rcases h2 y hy with h | h | h <;> rw [h] <;> rfl
  have n1 : ∀ y ∈ l, y.1.length = 4 ∧ y.1 ≠ kind "saiz" := fun y hy => ⟨h4 y hy, by rcases h2 y hy with h | h | h <;> rw [h] <;> decide +kernel⟩
  have n2 : ∀ y ∈ l, y.1.length = 4 ∧ y.1 ≠ kind "saio" := fun y hy => ⟨h4 y hy, by rcases h2 y hy with h | h | h <;> rw [h] <;> decide +kernel⟩
  have n3 : ∀ y ∈ l, y.1.length = 4 ∧ y.1 ≠ kind "senc" := fun y hy => ⟨h4 y hy, by rcases h2 y hy with h | h | h <;> rw [h] <;> decide +kernel⟩
  have k1 : name 's' 'a' 'i' 'z' = kind "saiz" := by decide +kernel
  have k2 : name 's' 'a' 'i' 'o' = kind "saio" := by decide +kernel
  have k3 : name 's' 'e' 'n' 'c' = kind "senc" := by decide +kernel
  unfold the exL
  have m1 : name 's' 'a' 'i' 'z' ≠ kind "saio" := by decide +kernel
  have m2 : name 's' 'a' 'i' 'z' ≠ kind "senc" := by decide +kernel
  have m3 : name 's' 'a' 'i' 'o' ≠ kind "senc" := by decide +kernel
  refine ⟨?_, ?_, ?_⟩
  · apply Exists.intro
    rw [Fmp4.toBoxes_append h4, List.find?_append, Fmp4.find_none fun y h => (n1 y h).2, Option.none_or, toBoxes, Fmp4.find_pos k1]
  · apply Exists.intro
    rw [Fmp4.toBoxes_append h4, List.find?_append, Fmp4.find_none fun y h => (n2 y h).2, Option.none_or, toBoxes, Fmp4.find_neg m1,
      toBoxes, Fmp4.find_pos k2]
  · apply Exists.intro
    rw [Fmp4.toBoxes_append h4, List.find?_append, Fmp4.find_none fun y h => (n3 y h).2, Option.none_or, toBoxes, Fmp4.find_neg m2,
      toBoxes, Fmp4.find_neg m3, toBoxes, Fmp4.find_pos k3]

end Verif.CencFile
