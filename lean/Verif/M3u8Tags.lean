import Verif.M3u8Line

/-! # Media playlists: tags are read as written -/

namespace Verif.M3u8

open Verif.Sub (str padded digits)
open Verif.SubSpec (isDigit value)
open Verif.M3u8Spec
open Verif.PName (Bytes Name dec write)

theorem find_nil (n : Bytes) : find n [] = none := rfl

theorem find_eq (n : Bytes) (v : Val) (l : List (Bytes × Val)) : find n ((n, v) :: l) = some v := by simp [find]

theorem find_ne {n m : Bytes} (h : m ≠ n) (v : Val) (l : List (Bytes × Val)) : find n ((m, v) :: l) = find n l := by simp [find, h]

theorem sName_ok (k : Cont) (i : Nat) : extBytes (.seg k.ext i) := ext_ok k
theorem pName_ok (k : Cont) (i p : Nat) : extBytes (.part k.ext i p) := ext_ok k

/-! ## Tags of segments -/

theorem line_inf (b : Before) (s : St) {v : Nat} (h : v / 1000 < 2 ^ 32) :
    line b s (str "#EXTINF:" ++ (secs v ++ [44])) = some { s with dur := some v } := by
  have e : str "#EXTINF:" ++ (secs v ++ [44]) = str "#EXTINF" ++ 58 :: (secs v ++ [44]) := by
    rw [show str "#EXTINF:" = str "#EXTINF" ++ [58] by decide +kernel, List.append_assoc]; rfl
  rw [e, line_valued b s (t := .inf) (by decide +kernel) (by decide +kernel) (by decide +kernel)]
  simp only [valued, cut_at (secs_no v (show isDigit 44 = false by decide) (by decide)), millis_secs h, Option.map_some]

theorem line_gap (b : Before) (s : St) : line b s (str "#EXT-X-GAP") = some { s with gap := true } := by
  rw [line_bare b s (t := .gap) (by decide +kernel) (by decide +kernel) (by decide +kernel)]; rfl

theorem line_rate (b : Before) (s : St) {n : Nat} (h : n < 2 ^ 32) :
    line b s (str "#EXT-X-BITRATE:" ++ dec n) = some { s with rate := some n } := by
  rw [show str "#EXT-X-BITRATE:" = str "#EXT-X-BITRATE" ++ [58] by decide +kernel, List.append_assoc]
  show line b s (_ ++ 58 :: dec n) = _
  rw [line_valued b s (t := .rate) (by decide +kernel) (by decide +kernel) (by decide +kernel)]
  simp only [valued, num_dec h, Option.map_some]

theorem line_uri (b : Before) (s : St) (id : Bytes) (m : Nat) (ext : Bytes) (i : Nat) :
    line b s (write id m (.seg ext i)) = segment s (write id m (.seg ext i)) := by
  obtain ⟨r, hr⟩ : ∃ r, write id m (.seg ext i) = 115 :: r := by
    rw [write, show str "seg" = 115 :: str "eg" by decide +kernel, List.cons_append]
    exact ⟨_, rfl⟩
  rw [hr]; rfl

theorem line_disc (b : Before) (s : St) : line b s (str "#EXT-X-DISCONTINUITY") = some { s with disc := s.disc + 1 } := by
  rw [line_bare b s (t := .disc) (by decide +kernel) (by decide +kernel) (by decide +kernel)]; rfl

theorem no61 : (61 : UInt8) ∉ str "URI" ∧ (61 : UInt8) ∉ str "DURATION" ∧ (61 : UInt8) ∉ str "TYPE" ∧ (61 : UInt8) ∉ str "INDEPENDENT" ∧
    (61 : UInt8) ∉ str "GAP" := by decide +kernel

theorem line_map (b : Before) (s : St) (id : Bytes) (m i : Nat) :
    line b s (str "#EXT-X-MAP:URI=\"" ++ (write id m (.init i) ++ [34])) = some { s with map := some (write id m (.init i)) } := by
  have e : str "#EXT-X-MAP:URI=\"" ++ (write id m (.init i) ++ [34]) =
      str "#EXT-X-MAP" ++ 58 :: commas ([(str "URI", Val.quoted (write id m (.init i)))].map attrText) := by
    rw [show str "#EXT-X-MAP:URI=\"" = str "#EXT-X-MAP" ++ 58 :: (str "URI" ++ [61, 34]) by decide +kernel]
    simp [commas, attrText]
  rw [e, line_valued b s (t := .map) (by decide +kernel) (by decide +kernel) (by decide +kernel)]
  simp only [valued]
  rw [attrs_read (by simp) (by
    intro a ha
    simp only [List.mem_singleton] at ha
    subst ha
    exact ⟨no61.1, write_no (n := .init i) trivial (by decide)⟩) rfl]
  simp only [Option.bind_some, strOf, find_eq, Option.map_some]

/-! ## Parts -/

theorem line_hint (b : Before) (s : St) (c : Chan) (k : Cont) (i p : Nat) :
    line b s (str "#EXT-X-PRELOAD-HINT:TYPE=PART" ++ partUri c k.ext i p) = some { s with hint := some (write c.id c.types (.part k.ext i p)) } := by
  have e : str "#EXT-X-PRELOAD-HINT:TYPE=PART" ++ partUri c k.ext i p =
      str "#EXT-X-PRELOAD-HINT" ++ 58 :: commas ([(str "TYPE", Val.plain (str "PART")), (str "URI", Val.quoted (write c.id c.types (.part k.ext i p)))].map attrText) := by
    unfold partUri
    rw [show str "#EXT-X-PRELOAD-HINT:TYPE=PART" = str "#EXT-X-PRELOAD-HINT" ++ 58 :: (str "TYPE" ++ 61 :: str "PART") by decide +kernel,
      show str ",URI=\"" = 44 :: (str "URI" ++ [61, 34]) by decide +kernel]
    simp [commas, attrText]
  rw [e, line_valued b s (t := .hint) (by decide +kernel) (by decide +kernel) (by decide +kernel)]
  simp only [valued]
  rw [attrs_read (by simp) (by
    intro a ha
    simp only [List.mem_cons, List.not_mem_nil, or_false] at ha
    rcases ha with rfl | rfl
    · exact ⟨no61.2.2.1, by decide +kernel, by decide +kernel⟩
    · exact ⟨no61.1, write_no (pName_ok k i p) (by decide)⟩) rfl]
  simp only [Option.bind_some, strOf, find_eq, if_true, find_ne (show str "TYPE" ≠ str "URI" by decide +kernel), Option.map_some]

def flagAttrs (d : Nat) : List (Bytes × Val) :=
  if d.testBit 31 then [(str "INDEPENDENT", .plain (str "YES"))] else if d.testBit 30 then [(str "GAP", .plain (str "YES"))] else []

theorem line_part (b : Before) (s : St) (c : Chan) (k : Cont) (i p d v : Nat) (h : v / 1000 < 2 ^ 32) (hd : d.testBit 31 = false ∨ d.testBit 30 = false) :
    line b s (str "#EXT-X-PART:DURATION=" ++ (secs v ++ (partFlags d ++ partUri c k.ext i p))) =
      some { s with parts := s.parts ++ [⟨write c.id c.types (.part k.ext i p), v, d.testBit 31, d.testBit 30⟩] } := by
  have e : str "#EXT-X-PART:DURATION=" ++ (secs v ++ (partFlags d ++ partUri c k.ext i p)) =
      str "#EXT-X-PART" ++ 58 :: commas (((str "DURATION", Val.plain (secs v)) :: (flagAttrs d ++ [(str "URI", Val.quoted (write c.id c.types (.part k.ext i p)))])).map attrText) := by
    unfold partUri partFlags flagAttrs
    rw [show str "#EXT-X-PART:DURATION=" = str "#EXT-X-PART" ++ 58 :: (str "DURATION" ++ [61]) by decide +kernel,
      show str ",URI=\"" = 44 :: (str "URI" ++ [61, 34]) by decide +kernel,
      show str ",INDEPENDENT=YES" = 44 :: (str "INDEPENDENT" ++ 61 :: str "YES") by decide +kernel,
      show str ",GAP=YES" = 44 :: (str "GAP" ++ 61 :: str "YES") by decide +kernel]
    split
    · simp [commas, attrText]
    · split <;> simp [commas, attrText]
  rw [e, line_valued b s (t := .part) (by decide +kernel) (by decide +kernel) (by decide +kernel)]
  simp only [valued]
  rw [attrs_read (by simp) (by
    intro a ha
    simp only [List.mem_cons, List.mem_append, List.not_mem_nil, or_false] at ha
    rcases ha with rfl | ha | rfl
    · exact ⟨no61.2.1, secs_no v (by decide) (by decide), secs_no v (by decide) (by decide)⟩
    · unfold flagAttrs at ha
      split at ha
      · simp only [List.mem_singleton] at ha; subst ha
        exact ⟨no61.2.2.2.1, by decide +kernel, by decide +kernel⟩
      · split at ha
        · simp only [List.mem_singleton] at ha; subst ha
          exact ⟨no61.2.2.2.2, by decide +kernel, by decide +kernel⟩
        · cases ha
    · exact ⟨no61.1, write_no (pName_ok k i p) (by decide)⟩) rfl]
  have n1 : str "DURATION" ≠ str "URI" := by decide +kernel
  have n2 : str "INDEPENDENT" ≠ str "URI" := by decide +kernel
  have n3 : str "GAP" ≠ str "URI" := by decide +kernel
  have n4 : str "DURATION" ≠ str "INDEPENDENT" := by decide +kernel
  have n5 : str "DURATION" ≠ str "GAP" := by decide +kernel
  have n6 : str "GAP" ≠ str "INDEPENDENT" := by decide +kernel
  have n7 : str "INDEPENDENT" ≠ str "GAP" := by decide +kernel
  unfold flagAttrs
  cases h31 : d.testBit 31
  · cases h30 : d.testBit 30
    · simp [strOf, msOf, find_eq, find_ne n1, find_ne n4, find_ne n5, find_ne n2.symm, find_ne n3.symm, find_nil, millis_secs h]
    · simp [strOf, msOf, find_eq, find_ne n1, find_ne n4, find_ne n5, find_ne n2.symm, find_ne n3, find_ne n6, find_nil, millis_secs h]
  · have h30 : d.testBit 30 = false := by simpa [h31] using hd
    simp [h30, strOf, msOf, find_eq, find_ne n1, find_ne n2, find_ne n4, find_ne n5, find_ne n7, find_ne n3.symm, find_nil, millis_secs h]

end Verif.M3u8
