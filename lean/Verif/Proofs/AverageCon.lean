import Verif.Proofs.AverageCost
import Verif.Proofs.FewCon

/-! # Sorting within the cost given by the memory -/

namespace Sorty

open Prog

variable {V κ : Type} {ρ : Type} [LinearOrder ρ]
variable {F : Fam V κ} {ok : κ → Prop} {rk : κ → ρ} {dd : Nat} {G : Int → Mem V → Prop} {s : Slice} {m : Mem V}

/-- a run within the cost -/
def LPaid (F : Fam V κ) (rk : κ → ρ) (p : Prog V (VSp κ) Unit) (s : Slice) (m : Mem V) : Prop :=
  ∃ c m', TIn s.rng p m c () m' ∧ RP s.rng m m' ∧ c ≤ lcost F rk s m

theorem paid_insertion (hF : FamOK F ok rk) (hlen : s.len ≤ F.maxIns) (hf : Fit F ok rk s m) : LPaid F rk (insertion F.key F.lt s) s m := by
  obtain ⟨c, _, m', e, h, -⟩ := tin_of (A := s.rng) (fun _ _ _ _ _ h => h)
    (insertion_spec (Sp := VSp κ) (cmp := fun _ _ _ _ _ => False) (W := s.rng) (R := ∅) hF.ltOK subset_rfl hf.ok)
  refine ⟨c, m', e, h, ?_⟩
  rw [lcost, if_pos hlen]
  exact paid e.runs (cost_insertion vmeter_wa)

/-- the first part of a round -/
structure Round (F : Fam V κ) (ok : κ → Prop) (rk : κ → ρ) (s : Slice) (m : Mem V) (Pv : Prog V (VSp κ) κ) (c0 c1 : Nat) (pv : κ) : Prop where
  piv : TIn s.rng Pv m c0 pv m
  part : TIn s.rng (partOne F s pv : Prog V (VSp κ) Int) m c1 (cutOf F rk s m).2.1 (m ∘ (cutOf F rk s m).2.2)
  cost : c0 + c1 ≤ 3 * s.len + 6
  k0 : 0 < (cutOf F rk s m).2.1.toNat
  k1 : (cutOf F rk s m).2.1.toNat < s.len
  rp : RP s.rng m (m ∘ (cutOf F rk s m).2.2)

theorem round_of (hF : FamOK F ok rk) (hmean : F.mean = none) (h10 : 10 ≤ s.len) (hf : Fit F ok rk s m) {Pv : Prog V (VSp κ) κ} {c0 : Nat} {pv : κ}
    (hp : TIn s.rng Pv m c0 pv m ∧ c0 ≤ 6 ∧ ok pv ∧ Middle (fun v => rk (F.key v)) (smp s (2 * nHalf F s.len + 1)) (nHalf F s.len) m (rk pv)) :
    ∃ c1, Round F ok rk s m Pv c0 c1 pv := by
  obtain ⟨e0, b0, okp, hmid⟩ := hp
  obtain ⟨-, q2, -, -⟩ := smp_ok (s := s) (F := F) h10
  have hmed := med_eq q2 hmid
  have hb := pOne_by κ s (sides (fun v => rk (F.key v)) s (rk pv) m)
  have hcut : cutOf F rk s m = pOne κ s (sides (fun v => rk (F.key v)) s (rk pv) m) := by
    unfold cutOf
    rw [hmed]
  obtain ⟨g0, g1⟩ := cutOf_bounds hF hmean h10 hf
  have hc := hb.cost
  refine ⟨(pOne κ s (sides (fun v => rk (F.key v)) s (rk pv) m)).1, e0, ?_, by omega, g0, g1, ⟨_, ?_, fun _ => rfl⟩⟩
  · rw [hcut]
    exact hb.run hF okp ⟨hf.ok, fun a ha => sides_eq ha⟩
  · rw [hcut]
    exact hb.fix

theorem round_short (hF : FamOK F ok rk) (hmean : F.mean = none) (h10 : 10 ≤ s.len) (hr : s.len ≤ F.maxRec) (hf : Fit F ok rk s m) :
    ∃ c0 c1 pv, Round F ok rk s m (shortPivot F s) c0 c1 pv := by
  obtain ⟨c0, pv, h1, h2, h3, h4⟩ := mid_short hF hmean h10 m hf
  have e : nHalf F s.len = 1 := by
    unfold nHalf
    rw [if_neg (by omega)]
  obtain ⟨c1, h⟩ := round_of hF hmean h10 hf ⟨h1, h2, h3, by rw [e]; exact h4⟩
  exact ⟨c0, c1, pv, h⟩

theorem round_long (hF : FamOK F ok rk) (hmean : F.mean = none) (h10 : 10 ≤ s.len) (hr : F.maxRec < s.len) (hf : Fit F ok rk s m) :
    ∃ c0 c1 pv, Round F ok rk s m (pivot F s F.nLong) c0 c1 pv := by
  obtain ⟨c0, pv, h1, h2, h3, h4⟩ := mid_long hF hmean h10 m hf
  have e : nHalf F s.len = 2 := by
    unfold nHalf
    rw [if_pos hr]
  obtain ⟨c1, h⟩ := round_of hF hmean h10 hf ⟨h1, h2, h3, by rw [e]; exact h4⟩
  exact ⟨c0, c1, pv, h⟩

theorem paid_short (hF : FamOK F ok rk) (hmean : F.mean = none) : ∀ (f d : Nat) (s : Slice) (m : Mem V), s.len ≤ f →
    F.maxIns < s.len → s.len ≤ F.maxRec → s.len < 2 ^ d → Fit F ok rk s m → LPaid F rk (short F f d s) s m := by
  have h8 : 8 < F.maxIns := hF.ins
  intro f
  induction f with
  | zero => intro d s m h1 h2; omega
  | succ f ih =>
    intro d s m hf hins hrec hd hfit
    obtain ⟨d, rfl⟩ : ∃ d', d = d' + 1 := by
      cases d with
      | zero => simp at hd; omega
      | succ d => exact ⟨d, rfl⟩
    have hd' := hd
    rw [pow_succ] at hd'
    obtain ⟨c0, c1, pv, R⟩ := round_short hF hmean (by omega) hrec hfit
    have hL := lcost_eq hF hmean hins hfit
    obtain ⟨e0, e1, hc, k0, k1, hrp⟩ := R
    generalize hk : (cutOf F rk s m).2.1 = k at *
    generalize m ∘ (cutOf F rk s m).2.2 = m1 at *
    obtain ⟨s1, s2, s3⟩ := parts_sub (s := s) k1.le
    obtain ⟨l1, l2, l3, l4⟩ := parts_len k0 k1
    have hsp : (splitAt s k : Prog V (VSp κ) (Slice × Slice)) = .ret (parts s k.toNat) := splitAt_eq (by omega) (by omega)
    unfold short
    have key : ∀ {K : Slice × Slice → Prog V (VSp κ) Unit} {c' : Nat} {m3 : Mem V}, TIn s.rng (K (parts s k.toNat)) m1 c' () m3 →
        TIn s.rng (do
          let pv ← shortPivot F s
          let i ← partOne F s pv
          let x ← splitAt s i
          K x) m (c0 + (c1 + (0 + c'))) () m3 := fun h => e0.bind (e1.bind (TIn.bind (by rw [hsp]; exact .ret _ _) h))
    have f1 := hrp.fit hfit s1
    have f2 := hrp.fit hfit s2
    generalize hx : parts s k.toNat = x at *
    obtain ⟨aq, ar⟩ := x
    dsimp only at *
    have pq : LPaid F rk (if aq.len > F.maxIns then short F f d aq else insertion F.key F.lt aq) aq m1 := by
      split_ifs with hq
      · exact ih d aq m1 (by omega) hq (by omega) (by omega) f1
      · exact paid_insertion hF (by omega) f1
    obtain ⟨ca, m2, ea, ra, ba⟩ := pq
    have ag : Agree ar.rng m1 m2 := ra.agree_of_disjoint s3
    have pr : LPaid F rk (if ar.len > F.maxIns then short F f (d + 1) ar else insertion F.key F.lt ar) ar m2 := by
      split_ifs with hq
      · exact ih (d + 1) ar m2 (by omega) hq (by omega) (by omega) (ag.fit f2)
      · exact paid_insertion hF (by omega) (ag.fit f2)
    obtain ⟨cb, m3, eb, rb, bb⟩ := pr
    rw [← lcost_congr h8 ag] at bb
    have ea := ea.mono s1
    have eb := eb.mono s2
    refine ⟨c0 + (c1 + (0 + (ca + cb))), m3, key ?_, (hrp.trans (ra.mono s1)).trans (rb.mono s2), by omega⟩
    dsimp only
    by_cases hq : aq.len > F.maxIns
    · rw [if_pos hq] at ea ⊢
      rw [if_pos (by omega)] at eb
      exact ea.bind eb
    · rw [if_neg hq] at ea ⊢
      by_cases hr : ar.len > F.maxIns
      · rw [if_pos hr] at eb
        refine TIn.bind (TIn.brk (a := true) (m1 := m2) (n := ca) ?_) ?_
        · refine TIn.bind (k := 0) ea ?_
          rw [if_pos hr]
          exact .ret _ _
        rw [if_pos rfl]
        exact eb
      · rw [if_neg hr] at eb
        refine TIn.bind (k := 0) (a := false) (m1 := m3) ?_ (by rw [if_neg (by simp)]; exact .ret _ _)
        refine TIn.again (s' := ar) (m1 := m2) (n := ca) (k := cb) ?_ (TIn.brk ?_)
        · refine TIn.bind (k := 0) ea ?_
          rw [if_neg hr]
          unfold Slice.addrNe
          rw [if_pos ⟨by omega, by omega⟩]
          show TIn _ (if (ar.off != aq.off) = true then _ else _) _ _ _ _
          rw [if_pos (by simp [l4])]
          exact .ret _ _
        · refine TIn.bind (k := 0) eb ?_
          rw [if_neg hr]
          unfold Slice.addrNe
          rw [if_pos ⟨by omega, by omega⟩]
          show TIn _ (if (ar.off != ar.off) = true then _ else _) _ _ _ _
          rw [if_neg (by simp)]
          exact .ret _ _

/-- credits and contracts of the goroutines of the value sorters -/
noncomputable def lkm (F : Fam V κ) (ok : κ → Prop) (rk : κ → ρ) : KMeter V (VSp κ) where
  ρ
    | .part ar _, _ => 3 * ar.len
    | .long ar _, m => lcost F rk ar m
  sp
    | .part .., _ => True
    | .long ar _, m => Fit F ok rk ar m
  post
    | .part ar pv, m => fun v m' => v = (pOne κ ar (sides (fun v => rk (F.key v)) ar (rk pv) m)).2.1 ∧
        Agree ar.rng (m ∘ (pOne κ ar (sides (fun v => rk (F.key v)) ar (rk pv) m)).2.2) m'
    | .long .., _ => fun _ _ => True

theorem lkm_local (hF : FamOK F ok rk) (d : Nat) : (lkm F ok rk).Local (vspec F ok rk d) where
  ρ := by
    rintro (⟨ar, pv⟩ | ⟨ar, f⟩) m m' ha
    · rfl
    · exact lcost_congr hF.ins (ha.mono Set.subset_union_left)
  sp := by
    rintro (⟨ar, pv⟩ | ⟨ar, f⟩) m m' ha h
    · trivial
    · exact (ha.mono Set.subset_union_left : Agree ar.rng m m').fit h
  post := by
    rintro (⟨ar, pv⟩ | ⟨ar, f⟩) m m' ha
    · funext v mf
      have ha' : Agree ar.rng m m' := ha.mono Set.subset_union_left
      show (_ ∧ _) = (_ ∧ _)
      rw [sides_congr ha']
      have hp := agree_perm subset_rfl (pOne_by κ ar (sides (fun v => rk (F.key v)) ar (rk pv) m')).fix ha'
      exact propext ⟨fun h => ⟨h.1, hp.symm.trans h.2⟩, fun h => ⟨h.1, hp.trans h.2⟩⟩
    · rfl
  post' := by
    rintro (⟨ar, pv⟩ | ⟨ar, f⟩) m v m' m'' ha h
    · exact ⟨h.1, h.2.trans (ha.mono Set.subset_union_left)⟩
    · trivial

/-- sorting a range within the cost, possibly with other goroutines -/
def KPaid (F : Fam V κ) (ok : κ → Prop) (rk : κ → ρ) (dd : Nat) (G : Int → Mem V → Prop) (p : Prog V (VSp κ) Unit) (ar : Slice) (m : Mem V) : Prop :=
  ∀ n (Q : Unit → Owed V (VSp κ) → Mem V → Nat → Prop), lcost F rk ar m ≤ n →
    (∀ m' n', Agree ar.rngᶜ m m' → n ≤ n' + lcost F rk ar m → Q () none m' n') →
    kw (vspec F ok rk dd) (lkm F ok rk) G p none m n Q

theorem LPaid.k {p : Prog V (VSp κ) Unit} (h : LPaid F rk p s m) : KPaid F ok rk dd G p s m := by
  intro n Q hn hQ
  obtain ⟨c, m', e, r, hc⟩ := h
  exact e.runs.kw' (by omega) (hQ _ _ (fun a ha => (r.out ha).symm) (by omega))

theorem KPaid.both {aq ar : Slice} {m1 : Mem V} (h8 : 8 < F.maxIns) (u1 : aq.rng ⊆ s.rng) (u2 : ar.rng ⊆ s.rng) (u3 : Disjoint aq.rng ar.rng)
    {p q : Prog V (VSp κ) Unit} (hp : KPaid F ok rk dd G p aq m1) (hq : ∀ m2, Agree ar.rng m1 m2 → KPaid F ok rk dd G q ar m2) {n : Nat}
    {Q : Unit → Owed V (VSp κ) → Mem V → Nat → Prop} (hn : lcost F rk aq m1 + lcost F rk ar m1 ≤ n)
    (hQ : ∀ m' n', Agree s.rngᶜ m1 m' → n ≤ n' + (lcost F rk aq m1 + lcost F rk ar m1) → Q () none m' n') :
    kw (vspec F ok rk dd) (lkm F ok rk) G (p >>= fun _ => q) none m1 n Q := by
  refine kw.bind (hp _ _ (by omega) fun m2 n2 h1 h2 => ?_)
  have ag : Agree ar.rng m1 m2 := h1.mono fun a ha => Set.disjoint_right.1 u3 ha
  have e := lcost_congr (F := F) (rk := rk) h8 ag
  refine hq m2 ag _ _ (by omega) fun m3 n3 h3 h4 => hQ m3 n3 ?_ (by omega)
  exact (h1.mono (Set.compl_subset_compl.2 u1)).trans (h3.mono (Set.compl_subset_compl.2 u2))

theorem kpaid_long (hF : FamOK F ok rk) (hmean : F.mean = none) : ∀ (f d : Nat) (ar : Slice) (sv : Bool) (m : Mem V), ar.len ≤ f →
    F.maxRec < ar.len → 2 * ar.len < 2 ^ d → 2 ^ d ≤ 2 ^ dd → Fit F ok rk ar m → KPaid F ok rk dd G (long F f d ar sv) ar m := by
  have h8 : 8 < F.maxIns := hF.ins
  have hrec := hF.recOK
  intro f
  induction f with
  | zero => intro d ar sv m h1 h2; omega
  | succ f ih =>
    intro d ar sv m hf hl hd hdd hfit n Q hnn hQ
    obtain ⟨d, rfl⟩ : ∃ d', d = d' + 1 := by
      cases d with
      | zero => simp at hd; omega
      | succ d => exact ⟨d, rfl⟩
    have hd' := hd
    have hdd' := hdd
    rw [pow_succ] at hd' hdd'
    obtain ⟨c0, c1, pv, R⟩ := round_long hF hmean (by omega) hl hfit
    have hL := lcost_eq hF hmean (by omega) hfit
    obtain ⟨e0, e1, hc, k0, k1, hrp⟩ := R
    generalize hk : (cutOf F rk ar m).2.1 = k at *
    generalize m ∘ (cutOf F rk ar m).2.2 = m1 at *
    obtain ⟨u1, u2, u3⟩ := parts_sub (s := ar) k1.le
    obtain ⟨hsum, hpos, hle, -⟩ := parts_len k0 k1
    have hsp : (splitAt ar k : Prog V (VSp κ) (Slice × Slice)) = .ret (parts ar k.toNat) := splitAt_eq (by omega) (by omega)
    have f1 := hrp.fit hfit u1
    have f2 := hrp.fit hfit u2
    have hmem : Agree ar.rngᶜ m m1 := fun a ha => (hrp.out ha).symm
    generalize hx : parts ar k.toNat = x at *
    obtain ⟨aq, ar'⟩ := x
    dsimp only at *
    have glue : ∀ {K : Slice × Slice → Prog V (VSp κ) Unit}, kw (vspec F ok rk dd) (lkm F ok rk) G (K (aq, ar')) none m1 (n - (c0 + c1)) Q →
        kw (vspec F ok rk dd) (lkm F ok rk) G (do
          let pv ← pivot F ar F.nLong
          let i ← partOne F ar pv
          let x ← splitAt ar i
          K x : Prog V (VSp κ) Unit) none m n Q := by
      intro K h
      refine e0.runs.kw (by omega) (e1.runs.kw (by omega) ?_)
      rw [hsp, Nat.sub_sub]
      exact h
    have fin : ∀ m' n', Agree ar.rngᶜ m1 m' → n - (c0 + c1) ≤ n' + (lcost F rk aq m1 + lcost F rk ar' m1) → Q () none m' n' :=
      fun m' n' h1 h2 => hQ m' n' (hmem.trans h1) (by omega)
    unfold long
    refine glue ?_
    dsimp only
    by_cases hq : aq.len ≤ F.maxRec
    · rw [if_pos hq]
      have rest : ∀ m2, Agree ar'.rng m1 m2 → KPaid F ok rk dd G (if ar'.len > F.maxRec then long F f (d + 1) ar' sv else short F f d ar') ar' m2 := by
        intro m2 ag
        split_ifs with hc
        · exact ih (d + 1) ar' sv m2 (by omega) hc (by omega) hdd (ag.fit f2)
        · exact (paid_short hF hmean f d ar' m2 (by omega) (by omega) (by omega) (by omega) (ag.fit f2)).k
      by_cases hc : aq.len > F.maxIns
      · rw [if_pos hc]
        exact KPaid.both h8 u1 u2 u3 (paid_short hF hmean f d aq m1 (by omega) hc hq (by omega) f1).k rest (by omega) fin
      · rw [if_neg hc]
        exact KPaid.both h8 u1 u2 u3 (paid_insertion hF (by omega) f1).k rest (by omega) fin
    · rw [if_neg hq]
      have both : ∀ full : Bool, kw (vspec F ok rk dd) (lkm F ok rk) G (if full = true then do
            long F f d aq sv
            long F f (d + 1) ar' sv
          else do
            let _ ← .incGor .ret
            .go (.long ar' f) (.ret ())
            long F f (d + 1) aq sv) none m1 (n - (c0 + c1)) Q := by
        intro full
        split
        · exact KPaid.both h8 u1 u2 u3 (ih d aq sv m1 (by omega) (by omega) (by omega) (by omega) f1)
            (fun m2 ag => ih (d + 1) ar' sv m2 (by omega) (by omega) (by omega) hdd (ag.fit f2)) (by omega) fin
        · intro x
          refine ⟨⟨f2, ?_⟩, ?_⟩
          · show lcost F rk ar' m1 ≤ _; omega
          · intro m2 hag
            have hag' : Agree ar'.rngᶜ m1 m2 := hag
            have ag : Agree aq.rng m1 m2 := hag'.mono fun a ha => Set.disjoint_left.1 u3 ha
            have e := lcost_congr (F := F) (rk := rk) h8 ag
            show kw (vspec F ok rk dd) (lkm F ok rk) G (long F f (d + 1) aq sv) none m2 (n - (c0 + c1) - lcost F rk ar' m1) Q
            refine ih (d + 1) aq sv m2 (by omega) (by omega) (by omega) hdd (ag.fit f1) _ _ (by omega) ?_
            intro m3 n3 h3 h4
            refine fin m3 n3 ?_ (by omega)
            exact (hag'.mono (Set.compl_subset_compl.2 u2)).trans (h3.mono (Set.compl_subset_compl.2 u1))
      cases sv with
      | false => exact both true
      | true => exact fun mg x => both _

theorem kpaid_body (hF : FamOK F ok rk) (hmean : F.mean = none) (sp : VSp κ) (m : Mem V) (h1 : (lkm F ok rk).sp sp m) (h2 : (vspec F ok rk dd).pre sp m) :
    kw (vspec F ok rk dd) (lkm F ok rk) (if (vspec F ok rk dd).isPart sp = true then (lkm F ok rk).post sp m else fun _ _ => True) (vbody F dd sp) none m
      ((lkm F ok rk).ρ sp m) fun _ _ _ _ => True := by
  cases sp with
  | part ar pv =>
    rw [if_pos (show (vspec F ok rk dd).isPart (.part ar pv) = true from rfl)]
    have hb := pOne_by κ ar (sides (fun v => rk (F.key v)) ar (rk pv) m)
    exact (hb.run hF h2.1 ⟨h2.2, fun a ha => sides_eq ha⟩).runs.kw hb.cost ⟨⟨rfl, Agree.refl _ _⟩, fun _ => trivial⟩
  | long ar f =>
    rw [if_neg (by simp [vspec])]
    refine kw.bind (kpaid_long hF hmean f dd ar true m h2.2.1 h2.1 h2.2.2.1 le_rfl h1 _ _ le_rfl fun m' n' _ _ x => ?_)
    show kw _ _ _ (if x = 0 then _ else _) _ _ _ _
    split
    · exact ⟨trivial, fun _ => trivial⟩
    · trivial

/-- concurrent partitioning -/
theorem kpaid_partCon (hF : FamOK F ok rk) (hmean : F.mean = none) (hl : 14 ≤ s.len) (hf : Fit F ok rk s m) {n : Nat}
    (hn : 3 * s.len + 5 * ((s.len + 3) / 4) + 7 ≤ n) {Q : Int → Owed V (VSp κ) → Mem V → Nat → Prop}
    (hQ : ∀ n', n ≤ n' + (3 * s.len + 5 * ((s.len + 3) / 4) + 7) → Q (conOf F rk s m).k none (m ∘ (conOf F rk s m).τ) n') :
    kw (vspec F ok rk dd) (lkm F ok rk) G (partCon F s) none m n Q := by
  obtain ⟨c0, pv, e0, b0, okp, hmid⟩ := mid_con hF hmean hl hf
  have hmed := med_eq (smp_card (s := s) (N := 7) (by omega) (by omega)) hmid
  have hconOf : conOf F rk s m = pCon κ s (sides (fun v => rk (F.key v)) s (rk pv) m) := by
    unfold conOf
    rw [hmed]
  rw [hconOf] at hQ
  have hb := pCon_by κ (s := s) (by omega) (sides (fun v => rk (F.key v)) s (rk pv) m)
  have hhs : (halfOf s).rng ⊆ s.rng := by
    intro a ha
    simp only [halfOf, Slice.rng, Set.mem_ofPred_eq] at *
    omega
  have hside : sides (fun v => rk (F.key v)) (halfOf s) (rk pv) m = cut (halfOf s) (sides (fun v => rk (F.key v)) s (rk pv) m) := by
    funext a
    unfold cut
    split_ifs with ha
    · rw [sides_eq ha, sides_eq (hhs ha)]
    · unfold sides
      rw [if_neg ha]
  have hone := pOne_by κ (halfOf s) (sides (fun v => rk (F.key v)) (halfOf s) (rk pv) m)
  have hpost : ∀ v m', (lkm F ok rk).post (.part (halfOf s) pv) m v m' → v = (pOne κ (halfOf s) (sides (fun v => rk (F.key v)) (halfOf s) (rk pv) m)).2.1 ∧
      Agree (halfOf s).rng (m ∘ (pOne κ (halfOf s) (sides (fun v => rk (F.key v)) (halfOf s) (rk pv) m)).2.2) m' := fun v m' h => h
  rw [hside] at hone hpost
  have hfix1 := hone.fix
  have hcost := hb.cost
  have hfix2 := hb.fix2
  have hrun3 := hb.run3 hF okp (m := m) ⟨hf.ok, fun a ha => sides_eq ha⟩
  have htold : Told F ok rk pv s.rng (sides (fun v => rk (F.key v)) s (rk pv) m) m := ⟨hf.ok, fun a ha => sides_eq ha⟩
  have hrun2 := fun {m : Mem V} => hb.run2 hF okp (m := m)
  generalize pCon κ s (sides (fun v => rk (F.key v)) s (rk pv) m) = x at *
  generalize sides (fun v => rk (F.key v)) s (rk pv) m = π at *
  generalize pOne κ (halfOf s) (cut (halfOf s) π) = y at *
  have houts : ∀ a ∈ outRng s ((s.len / 2 / 2 : Nat) : Int) (((s.len / 2 + s.len) / 2 : Nat) : Int), a ∈ s.rng ∧ a ∉ (halfOf s).rng := by
    intro a ha
    simp only [outRng, halfOf, Slice.rng, Set.mem_ofPred_eq] at *
    omega
  have houts' : ∀ a ∈ (halfOf s).rng, a ∉ outRng s ((s.len / 2 / 2 : Nat) : Int) (((s.len / 2 + s.len) / 2 : Nat) : Int) := fun a h1 h2 => (houts a h2).2 h1
  unfold partCon
  refine e0.runs.kw (by omega) ?_
  dsimp only
  have el : (s.len : Int) / 2 / 2 = ((s.len / 2 / 2 : Nat) : Int) := by omega
  have eh : meanI ((s.len : Int) / 2) s.len = (((s.len / 2 + s.len) / 2 : Nat) : Int) := by
    show ((s.len : Int) / 2 + s.len) / 2 = _
    omega
  rw [el, eh]
  have esub : (s.sub ((s.len / 2 / 2 : Nat) : Int) (((s.len / 2 + s.len) / 2 : Nat) : Int) : Prog V (VSp κ) Slice) = .ret (halfOf s) := by
    unfold Slice.sub halfOf
    rw [if_pos (by omega)]
    congr 2
    omega
  rw [esub]
  show kw _ _ _ (Prog.go _ (.ret ()) >>= _) none m _ _
  refine kw.bind (⟨⟨trivial, ?_⟩, ?_⟩ : kw (vspec F ok rk dd) (lkm F ok rk) G (Prog.go (.part (halfOf s) pv) (.ret ())) none m (n - c0) _)
  · show 3 * (halfOf s).len ≤ n - c0; omega
  intro m1 hm1
  have hm1' : Agree (halfOf s).rngᶜ m m1 := hm1
  show kw (vspec F ok rk dd) (lkm F ok rk) G (partTwo F s _ _ pv >>= _) (some (.part (halfOf s) pv, (lkm F ok rk).post (.part (halfOf s) pv) m)) m1
    (n - c0 - 3 * (halfOf s).len) Q
  have e2 := hrun2 (m := m1) ⟨fun a ha => by rw [← hm1' a (houts a ha).2]; exact htold.ok a (houts a ha).1,
    fun a ha => by rw [← hm1' a (houts a ha).2]; exact htold.side a (houts a ha).1⟩
  refine e2.runs.kw (by omega) ?_
  refine kw.bind (p := Prog.recv .ret) ?_
  intro v m4 hag hp
  obtain ⟨rfl, q2⟩ := hpost v m4 hp
  have hag' : Agree (halfOf s).rngᶜ (m1 ∘ x.τ2) m4 := hag.mono fun a ha => by
    rintro (h | h)
    · exact ha h
    · exact h
  have em : m4 = m ∘ (y.2.2 * x.τ2 : Equiv.Perm Nat) := by
    funext a
    simp only [Function.comp_apply, Equiv.Perm.mul_apply]
    by_cases ha : a ∈ (halfOf s).rng
    · rw [hfix2 a (houts' a ha), ← q2 a ha]
      rfl
    · rw [← hag' a ha]
      have h1 : x.τ2 a ∉ (halfOf s).rng := by
        by_cases hb : a ∈ outRng s ((s.len / 2 / 2 : Nat) : Int) (((s.len / 2 + s.len) / 2 : Nat) : Int)
        · exact (houts _ (perm_mem hfix2 hb)).2
        · rw [hfix2 a hb]; exact ha
      rw [hfix1 _ h1]
      exact (hm1' _ h1).symm
  rw [em]
  exact hrun3.runs.kw' (by omega) (hQ _ (by omega))

theorem kpaid_loop (hF : FamOK F ok rk) (hmean : F.mean = none) {d : Nat} (hdd : 2 ^ d ≤ 2 ^ dd) : ∀ (f : Nat) (ar : Slice) (m : Mem V) (n : Nat),
    2 * (F.maxRec + 1) ≤ ar.len → ar.len ≤ f → 2 * ar.len < 2 ^ d → Fit F ok rk ar m →
    ucost F rk ar m ≤ n → kw (vspec F ok rk dd) (lkm F ok rk) (fun _ _ => True) (sortLoop F d f ar) none m n fun _ _ _ _ => True := by
  have h8 : 8 < F.maxIns := hF.ins
  have hrec := hF.recOK
  intro f
  induction f with
  | zero => intro ar m n h1 h2; omega
  | succ f ih =>
    intro ar m n hl hf hd hfit hn
    have hU := ucost_eq hF hmean (by omega) hfit
    obtain ⟨k0, k1⟩ := conOf_bounds hF hmean (by omega) hfit
    have hb := pCon_by κ (s := ar) (by omega) (sides (fun v => rk (F.key v)) ar (med (fun v => rk (F.key v)) (smp ar 7) 3 m) m)
    have hrp : RP ar.rng m (m ∘ (conOf F rk ar m).τ) := ⟨_, hb.fix, fun _ => rfl⟩
    unfold sortLoop
    refine kw.bind (kpaid_partCon hF hmean (by omega) hfit (by omega) ?_)
    intro n1 hn1
    generalize hk : (conOf F rk ar m).k = k at *
    generalize m ∘ (conOf F rk ar m).τ = m1 at *
    obtain ⟨u1, u2, u3⟩ := parts_sub (s := ar) k1.le
    obtain ⟨hsum, hpos, hle, -⟩ := parts_len k0 k1
    have hsp : (splitAt ar k : Prog V (VSp κ) (Slice × Slice)) = .ret (parts ar k.toNat) := splitAt_eq (by omega) (by omega)
    have fq := hrp.fit hfit u1
    have fr := hrp.fit hfit u2
    rw [hsp]
    generalize hx : parts ar k.toNat = x at *
    obtain ⟨aq, ar'⟩ := x
    dsimp only at *
    refine kw.bind (p := .ret (aq, ar')) ?_
    show kw _ _ _ _ _ _ _ _
    dsimp only [kw]
    have rest : ∀ m2 n2, Agree aq.rngᶜ m1 m2 → n1 ≤ n2 + lcost F rk aq m1 → kw (vspec F ok rk dd) (lkm F ok rk) (fun _ _ => True) (do
        let stop ← if ar'.len < 2 * (F.maxRec + 1) then pure true else gorFull
        if stop then do
          long F f d ar' true
          let n ← .decGor .ret
          if n ≠ 0 then do
            let _ ← .recv .ret
            pure ()
          else pure ()
        else sortLoop F d f ar') none m2 n2 fun _ _ _ _ => True := by
      intro m2 n2 hag hn2
      have ag : Agree ar'.rng m1 m2 := hag.mono fun a ha => Set.disjoint_right.1 u3 ha
      have e := lcost_congr (F := F) (rk := rk) h8 ag
      have long : kw (vspec F ok rk dd) (lkm F ok rk) (fun _ _ => True) (do
          long F f d ar' true
          let n ← .decGor .ret
          if n ≠ 0 then do
            let _ ← .recv .ret
            pure ()
          else pure ()) none m2 n2 fun _ _ _ _ => True := by
        refine kw.bind (kpaid_long hF hmean f d ar' true m2 (by omega) (by omega) (by omega) hdd (ag.fit fr) _ _ (by omega) fun m' n' _ _ x => ?_)
        show kw _ _ _ (if x ≠ 0 then _ else _) _ _ _ _
        split
        · intro v; trivial
        · trivial
      by_cases hc : ar'.len < 2 * (F.maxRec + 1)
      · rw [if_pos hc]; exact long
      · rw [if_neg hc]
        intro mg x
        show kw _ _ _ (if decide (x ≥ mg) = true then _ else _) none m2 n2 _
        split
        · exact long
        · rw [if_pos (by omega)] at hU
          have e' := ucost_congr hF (by omega) ag
          exact ih ar' m2 n2 (by omega) (by omega) (by omega) (ag.fit fr) (by omega)
    by_cases hc1 : aq.len > F.maxRec
    · rw [if_pos hc1]
      intro x
      refine ⟨⟨fq, ?_⟩, ?_⟩
      · show lcost F rk aq m1 ≤ n1; omega
      · intro m2 hag
        exact rest m2 (n1 - lcost F rk aq m1) hag (by omega)
    rw [if_neg hc1]
    by_cases hc2 : aq.len > F.maxIns
    · rw [if_pos hc2]
      exact kw.bind ((paid_short hF hmean f d aq m1 (by omega) hc2 (by omega) (by omega) fq).k _ _ (by omega) rest)
    · rw [if_neg hc2]
      exact kw.bind ((paid_insertion hF (by omega) fq).k _ _ (by omega) rest)

theorem kpaid_sortV (hF : FamOK F ok rk) (hmean : F.mean = none) {d : Nat} (hdd : 2 ^ d ≤ 2 ^ dd) {ar : Slice} {m : Mem V} {n : Nat} (hd : 2 * ar.len < 2 ^ d)
    (hfit : Fit F ok rk ar m) (hn : lcost F rk ar m ≤ n) (hn' : 2 * (F.maxRec + 1) ≤ ar.len → ucost F rk ar m ≤ n) :
    kw (vspec F ok rk dd) (lkm F ok rk) (fun _ _ => True) (sortV F d ar) none m n fun _ _ _ _ => True := by
  unfold sortV
  dsimp only
  have single : kw (vspec F ok rk dd) (lkm F ok rk) (fun _ _ => True) (if ar.len > F.maxRec then long F ar.len d ar false
      else if ar.len > F.maxIns then short F ar.len d ar
      else insertion F.key F.lt ar) none m n fun _ _ _ _ => True := by
    split_ifs with h1 h2
    · exact kpaid_long hF hmean _ _ _ _ _ le_rfl h1 hd hdd hfit _ _ hn fun _ _ _ _ => trivial
    · exact (paid_short hF hmean _ d _ _ le_rfl h2 (by omega) (by omega) hfit).k _ _ hn fun _ _ _ _ => trivial
    · exact (paid_insertion hF (by omega) hfit).k _ _ hn fun _ _ _ _ => trivial
  by_cases hc : ar.len < 2 * (F.maxRec + 1)
  · rw [if_pos hc]; exact single
  · rw [if_neg hc]
    intro mg
    show kw _ _ _ (if decide (mg ≤ 1) = true then _ else _) none _ _ _
    split
    · exact single
    · exact kpaid_loop hF hmean hdd _ _ _ _ (by omega) le_rfl hd hfit (hn' (by omega))

end Sorty
