import Verif.RtmpDeliver

/-!
# RTMP: the length that is told with a message
-/

namespace Verif.Rtmp

/-- Lengths are right modulo 2 ^ 32; `u` bytes were read. -/
structure LenOk (A : AM) (u : Nat) : Prop where
  streams : ∀ st ∈ A.streams, st.frags.flatten.length % 2 ^ 32 = st.h.len ∧ st.frags.flatten.length ≤ u ∧ st.h.mlen < 2 ^ 24
  log : ∀ m ∈ A.log, m.data ≠ [] ∧ m.mlen < 2 ^ 24 ∧ m.data.flatten.length % 2 ^ 32 = m.mlen ∧ m.data.flatten.length ≤ u

theorem msgHdr_mlen {fmt : Nat} {h : Hdr} {bs : List UInt8} (hh : h.mlen < 2 ^ 24) : (msgHdr fmt h bs).1.mlen < 2 ^ 24 := by
  have hb : ∀ d e f : UInt8, beNum [d, e, f] < 2 ^ 24 := by
    intro d e f
    have := d.toNat_lt
    have := e.toNat_lt
    have := f.toNat_lt
    rw [beNum3]; omega
  unfold msgHdr
  split
  · split
    · split
      · split
        · split
          · split <;> exact hb _ _ _
          · exact hb _ _ _
        · exact hh
      · exact hh
    · exact hh
  · exact hh

theorem header_keeps {fmt n : Nat} {h h' : Hdr} {type3 : T3} {lastTs : Nat} {bs : List UInt8} {hd : Head} (e : header fmt n h type3 lastTs bs = (h', some hd)) (hh : h.mlen < 2 ^ 24) :
    hd.h.len = h.len ∧ hd.h.mlen < 2 ^ 24 := by
  obtain ⟨st, ts, k, t3, ex, e1, e2, rfl⟩ := header_some e
  have k1 := (msgHdr_keeps fmt h bs).1
  have k2 := msgHdr_mlen (fmt := fmt) (bs := bs) hh
  rw [e1] at k1 k2
  unfold start
  split
  · split <;> exact ⟨k1, k2⟩
  · exact ⟨k1, k2⟩

theorem lenOk_mono {A : AM} {u v : Nat} (h : LenOk A u) (huv : u ≤ v) : LenOk A v :=
  ⟨fun st hs => ⟨(h.streams st hs).1, Nat.le_trans (h.streams st hs).2.1 huv, (h.streams st hs).2.2⟩,
    fun m hm => ⟨(h.log m hm).1, (h.log m hm).2.1, (h.log m hm).2.2.1, Nat.le_trans (h.log m hm).2.2.2 huv⟩⟩

theorem setChunks_lenOk : ∀ (ns : List Nat) {A : AM} {u : Nat}, LenOk A u → LenOk (A.setChunks ns) u
  | [], _, _, h => h
  | n :: ns, A, u, h => by
    unfold AM.setChunks
    refine setChunks_lenOk ns ?_
    unfold AM.setChunk
    split
    · exact h
    · refine ⟨?_, h.log⟩
      intro st hs
      obtain ⟨a, ha, rfl⟩ := List.mem_map.1 hs
      simp only []
      rw [recut_flatten (by unfold maxHeader; omega)]
      exact h.streams a ha

theorem head_lenOk {g : Cfg} {A A' : AM} {bs : List UInt8} {c n u : Nat} (h : LenOk A u) (e : A.head g bs = .ok (A', c, n)) : LenOk A' u := by
  unfold AM.head at e
  split at e
  · cases e
  · split at e
    · cases e
    · split at e
      · cases e
      · rename_i st hst
        split at e
        · cases e
        · rename_i hd he
          split at e
          · cases e
          · cases e
            refine ⟨?_, h.log⟩
            intro x hx
            rcases List.mem_or_eq_of_mem_set hx with hx | rfl
            · exact h.streams x hx
            · have hs := h.streams st (List.mem_of_getElem? hst)
              obtain ⟨k1, k2⟩ := header_keeps he hs.2.2
              exact ⟨by rw [k1]; exact hs.1, hs.2.1, k2⟩

theorem body_lenOk {H : Handler} {A A' : AM} {bs : List UInt8} {c k u : Nat} (h : LenOk A u) (e : A.body H c bs = .ok (A', k)) : LenOk A' (u + k) := by
  have hmono := lenOk_mono h (Nat.le_add_right u k)
  unfold AM.body at e
  split at e
  · cases e
  · rename_i st hst
    obtain ⟨s1, s2, s3⟩ := h.streams st (List.mem_of_getElem? hst)
    split at e
    · cases e
    · rename_i hlen
      split at e
      · rename_i hl
        cases e
        refine ⟨?_, hmono.log⟩
        intro x hx
        rcases List.mem_or_eq_of_mem_set hx with hx | rfl
        · exact hmono.streams x hx
        · have ht : (bs.take A.chunk).length = A.chunk := by rw [List.length_take]; omega
          simp only [List.flatten_append, List.flatten_cons, List.flatten_nil, List.append_nil, List.length_append, ht]
          refine ⟨by rw [← s1]; omega, by omega, s3⟩
      · rename_i hl
        simp only [] at e
        split at e
        · cases e
        · rename_i sizes _
          cases e
          have ht : (bs.take (left st.h)).length = left st.h := by rw [List.length_take]; omega
          refine setChunks_lenOk sizes ⟨?_, ?_⟩
          · intro x hx
            rcases List.mem_or_eq_of_mem_set hx with hx | rfl
            · exact hmono.streams x hx
            · exact ⟨rfl, Nat.zero_le _, s3⟩
          · intro m hm
            rcases List.mem_append.1 hm with hm | hm
            · exact hmono.log m hm
            · rw [List.mem_singleton] at hm
              subst hm
              simp only [List.flatten_append, List.flatten_cons, List.flatten_nil, List.append_nil, List.length_append, ht]
              refine ⟨by simp, s3, ?_, by omega⟩
              have hl : st.h.len < 2 ^ 32 := by omega
              have : left st.h = (st.h.mlen + 2 ^ 32 - st.h.len) % 2 ^ 32 := rfl
              omega

theorem reads_lenOk {g : Cfg} {H : Handler} {type3 : T3} {bs rest : List UInt8} {A : AM} (h : Reads g H (newAM g type3) bs A rest) :
    rest.length ≤ bs.length ∧ LenOk A (bs.length - rest.length) := by
  induction h with
  | refl =>
    refine ⟨Nat.le_refl _, ?_, fun m hm => by simp [newAM] at hm⟩
    intro st hs
    rw [newAM, List.mem_replicate] at hs
    rw [hs.2]
    exact ⟨rfl, Nat.zero_le _, by decide⟩
  | step h e ih =>
    rename_i A1 A2 r n
    have hn := step_size e
    refine ⟨by rw [List.length_drop]; omega, ?_⟩
    unfold AM.step at e
    split at e
    · cases e
    · cases e
    · rename_i A3 c m hh
      split at e
      · cases e
      · cases e
      · rename_i A4 k hb
        cases e
        have := body_lenOk (head_lenOk ih.2 hh) hb
        refine lenOk_mono this ?_
        rw [List.length_drop]
        have := ih.1
        omega

/-- **C116**. The length that is told with a message is that of its data, modulo 2 ^ 32, and the data has a buffer. -/
theorem mlen_mod {g : Cfg} {H : Handler} {type3 : T3} {bytes : List UInt8} {s : Sess} (h : Run g H (newSess g type3) bytes s) :
    ∀ m ∈ s.log, m.data ≠ [] ∧ m.mlen < 2 ^ 24 ∧ m.data.flatten.length % 2 ^ 32 = m.mlen := by
  obtain ⟨A, pend, r1, r2⟩ := run_rel h
  rw [(rel_log r2).1]
  intro m hm
  obtain ⟨k1, k2, k3, -⟩ := (reads_lenOk r1).2.log m hm
  exact ⟨k1, k2, k3⟩

/-- It is that of its data when the connection got less than 2 ^ 32 bytes. -/
theorem mlen_eq {g : Cfg} {H : Handler} {type3 : T3} {bytes : List UInt8} {s : Sess} (h : Run g H (newSess g type3) bytes s) (hb : bytes.length < 2 ^ 32) :
    ∀ m ∈ s.log, m.data.flatten.length = m.mlen := by
  obtain ⟨A, pend, r1, r2⟩ := run_rel h
  rw [(rel_log r2).1]
  intro m hm
  obtain ⟨k0, hr⟩ := reads_lenOk r1
  obtain ⟨k1, k2, k3, k4⟩ := hr.log m hm
  omega

end Verif.Rtmp
