import Verif.Model.LswVariants
import Verif.Proofs.LswJob
import Verif.Proofs.Loads

/-! # Lesswap functions without the check, and goroutines that only load -/

namespace Sorty

open Prog

variable {V Sp : Type}

theorem unchecked_ok : @Lesswap.OK V unchecked := by
  let : Lesswap V := unchecked
  refine { spec := ?_, racy := ?_, plain := ?_ }
  · intro Sp cmp W R s i k x y m Q ht hi hk hx hy ai ak h1 h2
    show swp cmp W R (lswUnchecked s i k x y) m Q
    unfold lswUnchecked
    rw [if_pos ⟨hi, hk, hx, hy⟩]
    refine swp_bind (Slice.swp_rd' hi.1 hi.2 ai (swp_bind (Slice.swp_rd' hk.1 hk.2 ak (swp_bind ⟨ht _ _ _ _, ?_⟩))))
    intro b hb
    cases b with
    | false => exact h2 hb
    | true =>
      obtain ⟨⟨w1, w2⟩, h3⟩ := h1 hb
      exact swp_bind (Slice.swp_swap' hx.1 hx.2 hy.1 hy.2 w1 w2 h3)
  · intro Sp S s g i k x y m Q hr hph hi hk hx hy wx wy hQ
    show wp S (lswUnchecked s i k x y) g m Q
    unfold lswUnchecked
    rw [if_pos ⟨hi, hk, hx, hy⟩]
    have mem : ∀ {j}, s.ok j → s.ad j ∈ S.racy := by
      intro j hj
      refine hr ?_
      have h1 := hj.1; have h2 := hj.2
      simp only [Slice.rng, Slice.ad, Set.mem_ofPred_eq]; omega
    have rd : ∀ {j} {Q' : V → Gh V Sp → Mem V → Prop}, s.ok j → (∀ v, Q' v g m) → wp S (s.rd j) g m Q' := by
      intro j Q' hj h
      unfold Slice.rd
      rw [if_pos ⟨hj.1, hj.2⟩]
      exact ⟨⟨hph, .inr (mem hj)⟩, fun v _ => h v⟩
    refine wp_bind (rd hi fun v1 => wp_bind (rd hk fun v2 => wp_bind ⟨hph, fun b _ => ?_⟩))
    have h1 := hQ b
    cases b with
    | false => exact h1
    | true =>
      rw [if_pos rfl] at h1
      show wp S (s.swap x y >>= fun _ => pure true) g m Q
      refine wp_mono (swp_wp (S := S) (cmp := S.cmp) (R := ∅) (Q := fun b m' => b = true ∧ m' = s.swapM m x y) (fun _ _ _ _ _ h => h) hph subset_rfl (by simp)
        (swp_bind (Slice.swp_swap' hx.1 hx.2 hy.1 hy.2 wx wy ⟨rfl, rfl⟩))) ?_
      rintro b g' m' ⟨rfl, rfl, rfl⟩
      exact h1
  · intro Sp ρ n s i k x y
    show SpB ρ n (lswUnchecked s i k x y : Prog V Sp Bool)
    unfold lswUnchecked
    split
    · refine .bind (.rd _ _) fun x => .bind (.rd _ _) fun y => .bind (fun b => trivial) fun b => ?_
      spb
    · trivial

/-- goroutines that only load never race and change nothing -/
theorem loads_steps {P : Par V Sp} {s : Slice} {c c' : Cfg V Sp} (h : Steps P c c') (hl : ∀ p ∈ c.ths, p.OnlyLoads s) :
    (∀ p ∈ c'.ths, p.OnlyLoads s) ∧ c'.sh.mem = c.sh.mem := by
  induction h with
  | refl => exact ⟨hl, rfl⟩
  | tail _ h2 ih =>
    obtain ⟨h3, h4⟩ := ih
    cases h2 with
    | tau l₁ l₂ sh p sh' p' new ht =>
      have hp : p.OnlyLoads s := h3 p (by simp)
      have key : p'.OnlyLoads s ∧ new = [] ∧ sh'.mem = sh.mem := by
        cases ht with
        | read i k => exact ⟨hp.2 _, rfl, rfl⟩
        | less i j x y k b _ => exact ⟨hp b, rfl, rfl⟩
        | _ => exact hp.elim
      obtain ⟨k1, rfl, k3⟩ := key
      refine ⟨fun q hq => ?_, k3.trans h4⟩
      simp only [List.append_nil, List.mem_append, List.mem_cons] at hq
      rcases hq with hq | rfl | hq
      · exact h3 q (by simp [hq])
      · exact k1
      · exact h3 q (by simp [hq])
    | commSR l₁ l₂ l₃ sh v k k' _ => exact (h3 (.send v k) (by simp)).elim
    | commRS l₁ l₂ l₃ sh v k k' _ => exact (h3 (.send v k) (by simp)).elim

theorem loads_no_race {s : Slice} {c : Cfg V Sp} (hl : ∀ p ∈ c.ths, p.OnlyLoads s) : ¬ Race c := by
  rintro ⟨a, b, p, q, i, w, w', -, hp, hq, ha, hb, hw⟩
  have key : ∀ {p : Prog V Sp Unit} {w}, p.OnlyLoads s → p.access = some (i, w) → w = false := by
    intro p w h1 h2
    cases p with
    | read i k => simp [Prog.access] at h2; exact h2.2
    | write i v k => exact h1.elim
    | _ => simp [Prog.access] at h2
  have h1 := key (hl p (List.mem_of_getElem? hp)) ha
  have h2 := key (hl q (List.mem_of_getElem? hq)) hb
  subst h1 h2
  simp at hw

end Sorty
