import Verif.Proofs.NaN
import Verif.Proofs.Sort

/-! # A call of `sort*` of any family -/

namespace Sorty

open Prog

def FamId.float (id : FamId) : Bool := id = .F4 ∨ id = .F8

/-- compared value of an element -/
def crk (C : Conf) (id : FamId) (c : Cell) : Rk := rkOf id ((fam C id).key c)

/-- element the family can compare -/
def cok (C : Conf) (id : FamId) (c : Cell) : Prop := okOf id ((fam C id).key c)

/-- elements the family accepts: comparable ones, and NaNs if they are moved away -/
def Accept (C : Conf) (id : FamId) (c : Cell) : Prop :=
  cok C id c ∨ (id.float = true ∧ cellNaN c = true ∧ (C.nanOption = 1 ∨ C.nanOption = -1))

/-- outcome of a call on slice `s` -/
def SortedAs (C : Conf) (id : FamId) (s : Slice) (m mf : Mem Cell) : Prop :=
  RPon s.rng m mf ∧ ∃ t : Slice, t.len ≤ s.len ∧ t.off = (if C.nanOption = -1 then s.off + (s.len - t.len) else s.off) ∧
    (∀ a ∈ t.rng, cok C id (mf a)) ∧ SortedOn (crk C id) mf t.off (t.off + t.len) ∧
    ∀ a ∈ s.rng, a ∉ t.rng → id.float = true ∧ cellNaN (mf a) = true

theorem nan_not_ok {C : Conf} {id : FamId} {c : Cell} (hf : id.float = true) (h : cellNaN c = true) : ¬ cok C id c := by
  unfold cok
  cases id <;> simp [FamId.float] at hf <;> cases c <;> simp_all [cellNaN, fam, wordKey, okOf]

theorem accept_ok {C : Conf} {id : FamId} {c : Cell} (h : Accept C id c) (hn : id.float = true → cellNaN c = false) :
    cok C id c := by
  rcases h with h | ⟨h1, h2, _⟩
  · exact h
  · have := hn h1; simp [h2] at this

theorem SP.sortedAs {C : Conf} {id : FamId} {s : Slice} {m mf : Mem Cell} (h : SP (crk C id) s m mf)
    (hok : ∀ a ∈ s.rng, cok C id (m a)) : SortedAs C id s m mf :=
  ⟨h.1, s, le_rfl, by simp, fun a ha => h.1.all hok a ha, h.2, fun _ ha hn => absurd ha hn⟩

/-- sorting the NaN-free part after NaNs were moved -/
theorem NaNPost.sortedAs {C : Conf} {id : FamId} {s t : Slice} {b : Bool} {m m1 mf : Mem Cell}
    (hf : id.float = true) (hb : b = true ∧ C.nanOption = 1 ∨ b = false ∧ C.nanOption = -1)
    (h : NaNPost s b m t m1) (hok : ∀ a ∈ t.rng, cok C id (m1 a))
    (ha : Agree (s.rng \ t.rng) m1 mf) (hs : SP (crk C id) t m1 mf) : SortedAs C id s m mf := by
  have hrp : RPon s.rng m1 mf := by
    have h1 : RPon (s.rng \ t.rng) m1 mf := (RPon.refl _ m1).congr (Agree.refl _ _) ha
    have := hs.1.union (Set.disjoint_sdiff_right) h1
    rwa [Set.union_sdiff_cancel h.sub] at this
  refine ⟨h.rp.on.trans hrp, t, h.len, ?_, fun a ha => hs.1.all hok a ha, hs.2, fun a has hat => ⟨hf, ?_⟩⟩
  · rw [h.off]
    rcases hb with ⟨rfl, e⟩ | ⟨rfl, e⟩ <;> simp [e]
  · rw [← ha a ⟨has, hat⟩]; exact h.nan a has hat

/-- verification parameters of a call: `big` tells whether the slice is long enough for concurrency -/
def callPar (C : Conf) (id : FamId) (s : Slice) (m : Mem Cell) : IPar Cell (VSp Key) :=
  { N := s.len / ((fam C id).maxRec + 1), W0 := s.rng, G := SortedAs C id s m, big := decide (2 * ((fam C id).maxRec + 1) ≤ s.len) }

theorem depth_pow {depth n : Nat} (h : DepthFor depth n) : 2 * n < 2 ^ depth := by
  unfold DepthFor at h
  have h1 : n < 2 ^ (Nat.log2 n + 1) := Nat.lt_log2_self
  calc 2 * n < 2 * 2 ^ (Nat.log2 n + 1) := by omega
    _ = 2 ^ (Nat.log2 n + 2) := by ring
    _ ≤ 2 ^ depth := Nat.pow_le_pow_right (by norm_num) h

theorem sortOf_wp {C : Conf} (hC : C.OK) (id : FamId) {s : Slice} {m : Mem Cell} (hd : DepthFor C.depth s.len)
    (hok : ∀ a ∈ s.rng, Accept C id (m a)) :
    wp (vspec (fam C id) (okOf id) (rkOf id) C.depth) (sortOf C id s)
      (mainGh s.rng (SortedAs C id s m) (callPar C id s m).big (s.len / ((fam C id).maxRec + 1))) m endQ := by
  have hF := famOK hC id
  have hp := depth_pow hd
  unfold sortOf
  by_cases hf : id = .F4 ∨ id = .F8
  · rw [if_pos hf]
    have hf' : id.float = true := by simp [FamId.float, hf]
    have key : ∀ (b : Bool) (pr : Prog Cell (VSp Key) Slice),
        b = true ∧ C.nanOption = 1 ∨ b = false ∧ C.nanOption = -1 →
        swp (fun _ _ _ _ _ => True) s.rng ∅ pr m (NaNPost s b m) →
        wp (vspec (fam C id) (okOf id) (rkOf id) C.depth) (pr >>= fun ar => sortV (fam C id) C.depth ar)
          (mainGh s.rng (SortedAs C id s m) (callPar C id s m).big (s.len / ((fam C id).maxRec + 1))) m endQ := by
      intro b pr hb hsp
      refine wp_bind (seq_wp rfl subset_rfl hsp ?_)
      intro t m1 ht
      have htl := ht.len
      have hok1 : ∀ a ∈ t.rng, cok C id (m1 a) := fun a ha =>
        accept_ok (ht.rp.all hok a (ht.sub ha)) fun _ => ht.free a ha
      refine sortV_spec hF le_rfl ⟨rfl, by simp [mainGh], rfl, rfl⟩ rfl rfl rfl ?_ ht.sub (by omega) (Nat.div_le_div_right htl) hok1 ?_
      · intro h; simp only [mainGh, callPar, decide_eq_true_eq]; omega
      · intro mf _ ha hs
        exact ht.sortedAs hf' hb hok1 ha hs
    by_cases h1 : C.nanOption = 1
    · rw [if_pos h1]
      exact key true _ (.inl ⟨rfl, h1⟩) (nanToEnd_spec subset_rfl)
    · rw [if_neg h1]
      by_cases h2 : C.nanOption = -1
      · rw [if_pos h2]
        exact key false _ (.inr ⟨rfl, h2⟩) (nanToStart_spec subset_rfl)
      · rw [if_neg h2]
        have hok1 : ∀ a ∈ s.rng, cok C id (m a) := by
          intro a ha
          rcases hok a ha with h | ⟨_, _, h | h⟩
          · exact h
          · exact absurd h h1
          · exact absurd h h2
        show wp _ (sortV (fam C id) C.depth s) _ _ _
        refine sortV_spec hF le_rfl ⟨rfl, by simp [mainGh], rfl, rfl⟩ rfl rfl rfl ?_ subset_rfl hp le_rfl hok1 ?_
        · intro h; simpa [mainGh, callPar] using h
        · intro mf _ _ hs; exact SP.sortedAs hs hok1
  · rw [if_neg hf]
    have hf' : id.float = false := by simp [FamId.float]; tauto
    have hok1 : ∀ a ∈ s.rng, cok C id (m a) := by
      intro a ha
      rcases hok a ha with h | ⟨h, _⟩
      · exact h
      · simp [hf'] at h
    refine sortV_spec hF le_rfl ⟨rfl, by simp [mainGh], rfl, rfl⟩ rfl rfl rfl ?_ subset_rfl hp le_rfl hok1 ?_
    · intro h; simpa [mainGh, callPar] using h
    · intro mf _ _ hs; exact SP.sortedAs hs hok1

/-- the call of a family's `sort*` -/
def famCall (C : Conf) (id : FamId) (s : Slice) : Call := ⟨sortOf C id s, vbody (fam C id) C.depth⟩

theorem call_hyp {C : Conf} (hC : C.OK) (id : FamId) {s : Slice} (m : Mem Cell) (hl : s.len < 2 ^ 63) (M : Nat) (stale : Prop) :
    Hyp ((famCall C id s).par M stale) (vspec (fam C id) (okOf id) (rkOf id) C.depth) (callPar C id s m) where
  loc := vspec_local _
  body := vbody_ok (famOK hC id) rfl
  N := by
    show s.len / ((fam C id).maxRec + 1) < 2 ^ 64
    have := Nat.div_le_self s.len ((fam C id).maxRec + 1)
    omega
  cmp := fun _ _ _ _ _ _ => trivial
  tot := fun _ _ _ _ => ⟨true, trivial⟩

theorem call_start {C : Conf} (hC : C.OK) (id : FamId) {s : Slice} {m : Mem Cell} (hd : DepthFor C.depth s.len)
    (hok : ∀ a ∈ s.rng, Accept C id (m a)) (M : Nat) (stale : Prop) :
    ∃ ts, Inv ((famCall C id s).par M stale) (vspec (fam C id) (okOf id) (rkOf id) C.depth) (callPar C id s m)
      (start (famCall C id s).main m) ts :=
  Inv.start (n := s.len / ((fam C id).maxRec + 1)) le_rfl (sortOf_wp hC id hd hok)

end Sorty
