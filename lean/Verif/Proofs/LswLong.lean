import Verif.Proofs.LswAny
import Verif.Proofs.Long

/-! # Long ranges via lesswap -/

namespace Sorty

open Prog

variable {V : Type} {ρ : Type} [LinearOrder ρ]
variable {cmp : Nat → Nat → V → V → Bool → Prop} {r : V → ρ}
variable [Lesswap V] [Lesswap.OK V]

/-- contracts of the goroutines of `Sort`; `any` is for comparators that may say an index is less than itself: the goroutine that
partitions the middle half may then move the pivot, which the caller may be reading -/
def lspecG (C : Conf) (s : Slice) (cmp : Nat → Nat → V → V → Bool → Prop) (r : V → ρ) (any : Bool) : Spec V LSp where
  isPart | .part .. => true | .long .. => false
  W | .part l pv h => cond any (s.seg l h).rng (s.but l pv h) | .long lo hi _ => (s.seg lo hi).rng
  R | .part _ pv _ => cond any ∅ {s.ad pv} | .long .. => ∅
  sz | .part .. => 0 | .long lo hi _ => (s.seg lo hi).len / (C.maxLenRecFC + 1)
  pre
    | .part l pv h, _ => cond any (0 ≤ l ∧ h < s.len ∧ l ≤ pv ∧ pv ≤ h) (0 ≤ l ∧ l ≤ h + 1 ∧ h < s.len ∧ s.ok pv)
    | .long lo hi f, _ => 0 ≤ lo ∧ hi < s.len ∧ C.maxLenRecFC ≤ hi - lo ∧ hi + 1 - lo ≤ f ∧
        2 * (hi + 1 - lo) < ((2 ^ C.depth : Nat) : Int)
  goal
    | .part .., _ => fun _ => True
    | .long lo hi _, m => SP r (s.seg lo hi) m
  ppost
    | .part l pv h, m => fun v m' => cond any (l ≤ v ∧ v ≤ h + 1 ∧ RPon (s.seg l h).rng m m')
        (∃ m0 m1, Agree (s.but l pv h ∪ {s.ad pv}) m m0 ∧ Agree (s.but l pv h ∪ {s.ad pv}) m1 m' ∧ LP1Post r s l pv h m0 v m1)
    | .long .., _ => fun _ _ => True
  cmp := cmp
  racy := cond any s.rng ∅

/-- contracts of the goroutines of `Sort` -/
abbrev lspec (C : Conf) (s : Slice) (cmp : Nat → Nat → V → V → Bool → Prop) (r : V → ρ) : Spec V LSp := lspecG C s cmp r false

variable {C : Conf} {s : Slice} {any : Bool}

omit [Lesswap V] [Lesswap.OK V] in
theorem lspec_local : (lspecG C s cmp r any).Local where
  pre := by
    rintro (⟨l, pv, h⟩ | ⟨lo, hi, f⟩) m m' ha h <;> exact h
  goal := by
    rintro (⟨l, pv, h⟩ | ⟨lo, hi, f⟩) m m' ha
    · rfl
    · funext mf
      have ha' : Agree (s.seg lo hi).rng m m' := ha.mono Set.subset_union_left
      exact propext ⟨fun h => h.congr ha' (Agree.refl _ _), fun h => h.congr ha'.symm (Agree.refl _ _)⟩
  ppost := by
    rintro (⟨l, pv, h⟩ | ⟨lo, hi, f⟩) m m' ha
    · funext v mf
      cases any with
      | false =>
        refine propext ⟨?_, ?_⟩
        · rintro ⟨m0, m1, h1, h2⟩; exact ⟨m0, m1, ha.symm.trans h1, h2⟩
        · rintro ⟨m0, m1, h1, h2⟩; exact ⟨m0, m1, ha.trans h1, h2⟩
      | true =>
        have ha' : Agree (s.seg l h).rng m m' := ha.mono Set.subset_union_left
        refine propext ⟨?_, ?_⟩
        · rintro ⟨h1, h2, h3⟩; exact ⟨h1, h2, h3.congr ha' (Agree.refl _ _)⟩
        · rintro ⟨h1, h2, h3⟩; exact ⟨h1, h2, h3.congr ha'.symm (Agree.refl _ _)⟩
    · rfl
  ppost' := by
    rintro (⟨l, pv, h⟩ | ⟨lo, hi, f⟩) m v m' m'' ha h
    · cases any with
      | false =>
        obtain ⟨m0, m1, h1, h2, h3⟩ := h
        exact ⟨m0, m1, h1, h2.trans ha, h3⟩
      | true =>
        obtain ⟨h1, h2, h3⟩ := h
        exact ⟨h1, h2, h3.congr (Agree.refl _ _) (ha.mono Set.subset_union_left)⟩
    · trivial

omit [Lesswap V] [Lesswap.OK V] in
/-- sequential code inside a goroutine -/
theorem lseq_wp {α : Type} {g : Gh V LSp} {m : Mem V} (hph : g.ph = .run) {W R : Set Nat} (hW : W ⊆ g.W) (hR : R ⊆ g.W ∪ g.R)
    {p : Prog V LSp α} {Q : α → Mem V → Prop} {Q' : α → Gh V LSp → Mem V → Prop}
    (h : swp cmp W R p m Q) (hQ : ∀ a m', Q a m' → Q' a g m') :
    wp (lspecG C s cmp r any) p g m Q' := by
  refine wp_mono (swp_wp (S := lspecG C s cmp r any) (fun _ _ _ _ _ h => h) hph hW hR h) ?_
  rintro a g' m' ⟨rfl, hq⟩
  exact hQ a m' hq

/-- what is assumed of a call of `Sort` on collection `s` -/
structure LOKG (C : Conf) (s : Slice) (cmp : Nat → Nat → V → V → Bool → Prop) (r : V → ρ) (any : Bool) : Prop where
  weak : CmpW cmp r
  strict : any = false → ∀ i x, ¬ cmp i i x x true
  triv : any = true → ∀ x y, r x ≤ r y
  ins : 8 < C.maxLenInsFC
  recOK : 2 * C.maxLenInsFC < C.maxLenRecFC
  word : C.wordSize = 4 ∨ C.wordSize = 8
  fits : FitsInt C.wordSize s.len

abbrev LOK (C : Conf) (s : Slice) (cmp : Nat → Nat → V → V → Bool → Prop) (r : V → ρ) : Prop := LOKG C s cmp r false

omit [Lesswap V] [Lesswap.OK V] in
theorem LOKG.ok (h : LOKG C s cmp r false) : CmpOK cmp r := { h.weak with irrefl := h.strict rfl }

theorem LOKG.part (h : LOKG C s cmp r any) {Sp : Type} {W R : Set Nat} : LPartOK cmp Sp W R r s := by
  cases any with
  | false => exact lswPartOne_ok h.ok
  | true => exact lswPartOne_anyOk h.weak (h.triv rfl)

/-- pivot, partition and split of a long range -/
theorem lswPartStep_spec (hL : LOKG C s cmp r any) {lo hi : Int} {m : Mem V} (h0 : 0 ≤ lo) (h1 : hi < s.len)
    (hl : C.maxLenRecFC ≤ hi - lo) {α : Type} {k : Int → Prog V LSp α} {g : Gh V LSp}
    (hph : g.ph = .run) (hW : (s.seg lo hi).rng ⊆ g.W) {Q : α → Gh V LSp → Mem V → Prop}
    (hQ : ∀ i m' p, lo < i → i ≤ hi → RP (s.seg lo hi).rng m m' → (∀ j, lo ≤ j → j < i → r (s.E m' j) ≤ p) →
      (∀ j, i ≤ j → j ≤ hi → p ≤ r (s.E m' j)) → wp (lspecG C s cmp r any) (k i) g m' Q) :
    wp (lspecG C s cmp r any) (do
      let pv ← lswPivot C.wordSize s lo hi (nsLong - 1)
      let i ← lswPartOne s (lo + 1) pv (hi - 1)
      k i) g m Q := by
  have h8 := hL.ins
  have hr := hL.recOK
  refine wp_bind (lseq_wp (R := ∅) hph hW (by simp) (lswPivot_spec hL.weak hL.word hL.fits (t := 2) h0 h1 rfl le_rfl (by omega)
    (by unfold nsLong; omega) subset_rfl) ?_)
  rintro pv m1 ⟨hp, -, -⟩
  refine wp_bind (lseq_wp (R := ∅) hph hW (by simp) (hL.part lo hi pv m m1 h0 h1 subset_rfl hp) ?_)
  rintro i m2 ⟨k0, k1, hrp, p, hlow, hhigh⟩
  exact hQ i m2 _ k0 k1 hrp hlow hhigh

theorem lswLong_spec (hL : LOKG C s cmp r any) : ∀ (f d : Nat) (lo hi : Int) (sv : Bool) (g : Gh V LSp) (m : Mem V),
    Idle g → (sv = true → g.C = true) → 0 ≤ lo → hi < s.len → (s.seg lo hi).rng ⊆ g.W → C.maxLenRecFC ≤ hi - lo →
    hi + 1 - lo ≤ f → 2 * (hi + 1 - lo) < ((2 ^ d : Nat) : Int) → 2 ^ d ≤ 2 ^ C.depth → (s.seg lo hi).len / (C.maxLenRecFC + 1) ≤ g.sz →
    wp (lspecG C s cmp r any) (lswLong C s f d lo hi sv) g m fun _ g' m' =>
      Reg (s.seg lo hi).rng (SP r (s.seg lo hi) m) ((s.seg lo hi).len / (C.maxLenRecFC + 1) - 1) g m g' m' := by
  have h8 := hL.ins
  have hr := hL.recOK
  intro f
  induction f with
  | zero => intro d lo hi sv g m _ _ _ _ _ h1 h2; omega
  | succ f ih =>
    intro d lo hi sv g m hi0 hC h0 h1 hW hl hf hd hdd hsz
    unfold lswLong
    refine lswPartStep_spec hL h0 h1 hl hi0.ph hW ?_
    intro k m1 p k0 k1 hrp hlow hhigh
    obtain ⟨l, h, lo', hi', he, hsp, b1, b2, b3, b4, b5, b6, b7, b8, b9⟩ := lswSplit_spec h0 k0 k1 hrp.on hlow hhigh
    rw [he]
    dsimp only
    obtain ⟨u1, u2, u3, u4⟩ := hsp.sub
    have hle := hsp.le
    have hpos := hsp.pos
    have hsum := hsp.sum
    have n1 := seg_len (s := s) (lo := l) (hi := h) (by omega)
    have n2 := seg_len (s := s) (lo := lo') (hi := hi') (by omega)
    have n3 := seg_len (s := s) (lo := lo) (hi := hi) (by omega)
    have hu : (s.seg l h).len / (C.maxLenRecFC + 1) + (s.seg lo' hi').len / (C.maxLenRecFC + 1) ≤ (s.seg lo hi).len / (C.maxLenRecFC + 1) := by
      rw [← hsum]; exact div_add_le ..
    have hua : (s.seg l h).len / (C.maxLenRecFC + 1) ≤ (s.seg lo hi).len / (C.maxLenRecFC + 1) := le_trans (Nat.le_add_right ..) hu
    have hub : (s.seg lo' hi').len / (C.maxLenRecFC + 1) ≤ (s.seg lo hi).len / (C.maxLenRecFC + 1) := le_trans (Nat.le_add_left ..) hu
    have hu1 : ∀ {x : Slice}, C.maxLenRecFC < x.len → 0 < x.len / (C.maxLenRecFC + 1) := fun h => Nat.div_pos h (by omega)
    have hu0 := hu1 (x := s.seg lo hi) (by omega)
    have hm0 : Agree (g.W \ (s.seg lo hi).rng) m m1 := hrp.agree_sdiff
    obtain ⟨d, rfl⟩ : ∃ d', d = d' + 1 := by
      cases d with
      | zero => simp at hd; omega
      | succ d => exact ⟨d, rfl⟩
    rw [pow_succ] at hd hdd
    by_cases hq : h - l < C.maxLenRecFC
    · rw [if_pos hq]
      have key : ∀ m2, (RP (s.seg l h).rng m1 m2 ∧ SortedOn r m2 (s.seg l h).off ((s.seg l h).off + (s.seg l h).len)) →
          wp (lspecG C s cmp r any) (if hi' - lo' ≥ C.maxLenRecFC then lswLong C s f (d + 1) lo' hi' sv else lswShort C s f d lo' hi') g m2
            fun _ g' m' => Reg (s.seg lo hi).rng (SP r (s.seg lo hi) m) ((s.seg lo hi).len / (C.maxLenRecFC + 1) - 1) g m g' m' := by
        intro m2 h2
        have r1 := Reg.sorted (u1.trans hW) h2
        have ag : Agree (s.seg lo' hi').rng m1 m2 := h2.1.agree_of_disjoint u3
        by_cases hc : hi' - lo' ≥ C.maxLenRecFC
        · rw [if_pos hc]
          refine wp_mono (ih (d + 1) lo' hi' sv g m2 hi0 hC (by omega) (by omega) (u2.trans hW) hc (by omega) (by rw [pow_succ]; omega)
            (by rw [pow_succ]; omega) (by omega)) ?_
          intro _ g' m' h3
          exact (hsp.reg hm0 r1 h3 ag).weaken subset_rfl (fun _ h => h) (by omega)
        · rw [if_neg hc]
          refine lseq_wp (R := ∅) hi0.ph (u2.trans hW) (by simp) (lswShort_gen hL.weak hL.part h8 f d lo' hi' m2 (by omega) (by omega) subset_rfl (by omega) (by omega)
            (by omega)) ?_
          intro _ m3 h3
          exact (hsp.reg hm0 r1 (Reg.sorted (u2.trans hW) h3) ag).weaken subset_rfl (fun _ h => h) (by omega)
      by_cases hq2 : h - l ≥ C.maxLenInsFC
      · rw [if_pos hq2]
        exact wp_bind (lseq_wp (R := ∅) hi0.ph (u1.trans hW) (by simp) (lswShort_gen hL.weak hL.part h8 f d l h m1 (by omega) (by omega) subset_rfl (by omega) (by omega)
            (by omega)) fun _ m2 h2 => key m2 h2)
      · rw [if_neg hq2]
        exact wp_bind (lseq_wp (R := ∅) hi0.ph (u1.trans hW) (by simp) (lswInsertion_spec hL.weak (by omega) (by omega) b2 subset_rfl) fun _ m2 h2 => key m2 h2)
    · rw [if_neg hq]
      have hq1 := hu1 (x := s.seg l h) (by omega)
      have hr1 := hu1 (x := s.seg lo' hi') (by omega)
      have both : ∀ b k, wp (lspecG C s cmp r any) (do
            lswLong C s f d l h sv
            lswLong C s f (d + 1) lo' hi' sv) { g with S := b, mg := k } m1
            fun _ g' m' => Reg (s.seg lo hi).rng (SP r (s.seg lo hi) m) ((s.seg lo hi).len / (C.maxLenRecFC + 1) - 1) g m g' m' := by
        intro b k
        refine wp_bind (wp_mono (ih d l h sv { g with S := b, mg := k } m1 ⟨hi0.ph, hi0.role, hi0.T, hi0.J⟩ hC (by omega) (by omega) (u1.trans hW) (by omega) (by omega) (by omega)
          (by omega) (by dsimp only; omega)) ?_)
        intro _ g1 m2 h1
        have ag : Agree (s.seg lo' hi').rng m1 m2 := h1.mem.mono fun i hi' => ⟨hW (u2 hi'), Set.disjoint_right.1 u3 hi'⟩
        have hs1 := h1.same
        have hsz1 := h1.sz
        dsimp only at hsz1
        refine wp_mono (ih (d + 1) lo' hi' sv g1 m2 (Idle.of_S hi0 hs1) (fun h => by rw [hs1.C]; exact hC h) (by omega) (by omega) ?_ (by omega) (by omega) (by rw [pow_succ]; omega)
            (by rw [pow_succ]; omega) (by omega)) ?_
        · intro i hi'
          exact h1.Wlo ⟨hW (u2 hi'), Set.disjoint_right.1 u3 hi'⟩
        · intro _ g2 m3 h2
          exact (hsp.reg hm0 (Reg.of_S h1) h2 ag).weaken subset_rfl (fun _ h => h) (by omega)
      cases sv with
      | false => exact both g.S g.mg
      | true =>
        have hC' := hC rfl
        refine ⟨hi0.ph, fun mg => ⟨hC', hi0.ph, hi0.role, hi0.J, fun n => ?_⟩⟩
        dsimp only [Prog.bind]
        show wp (lspecG C s cmp r any) (if decide (n ≥ mg) = true then _ else _) _ _ _
        by_cases hn : n < mg
        · rw [if_neg (by simp; omega)]
          refine spawn_wp (S := lspecG C s cmp r any) (s := .long lo' hi' f) (g := { g with mg := mg, S := decide (n < mg) })
            ⟨hi0.ph, hi0.role, hi0.T, hi0.J⟩ hC' (by simp [hn]) rfl (u2.trans hW) rfl ?_ ?_ ?_ ?_
          · exact ⟨by omega, by omega, by omega, by omega, by omega⟩
          · exact hr1
          · show (s.seg lo' hi').len / (C.maxLenRecFC + 1) < g.sz; omega
          · intro g1 h1 hW1 hsz1 hS1
            have hs1 := h1.same
            refine wp_mono (ih (d + 1) l h true g1 m1 (Idle.of_S hi0 hs1) (fun _ => hs1.C.trans hC') (by omega) (by omega) ?_ (by omega) (by omega) (by rw [pow_succ]; omega) (by rw [pow_succ]; omega) ?_) ?_
            · rw [hW1]
              exact fun i hi' => ⟨hW (u1 hi'), Set.disjoint_left.1 u3 hi'⟩
            · rw [hsz1]; show (s.seg l h).len / (C.maxLenRecFC + 1) ≤ g.sz - (s.seg lo' hi').len / (C.maxLenRecFC + 1); omega
            · intro _ g2 m2 h2
              have h1' : Reg (s.seg lo' hi').rng (SP r (s.seg lo' hi') m1) ((s.seg lo' hi').len / (C.maxLenRecFC + 1)) g m1 g1 m1 :=
                Reg.of_S (b := decide (n < mg)) (k := mg) h1
              exact (hsp.reg' hm0 h1' h2 (Agree.refl _ _)).weaken subset_rfl (fun _ h => h) (by omega)
        · rw [if_pos (by simp; omega)]
          exact both _ _

end Sorty
