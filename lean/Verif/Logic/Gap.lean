import Verif.SemLen
import Mathlib.Tactic.Ring

/-! # Few steps between two events

If a goroutine never does more than `K` other steps between two events, all steps can be counted by counting events. The events are the loads and
stores (`acc`) or the calls of the comparator. A goroutine holds a budget of other steps, an event sets it to `K`, and a `go` statement gives `g`
of the budget to the new goroutine. -/

namespace Sorty

open Prog

variable {V Sp α β : Type} {acc : Bool} {K g : Nat}

/-- with budget `b` the program can pay for all its steps, and leaves `Q` -/
def gw (acc : Bool) (K g : Nat) : Prog V Sp α → Nat → (α → Nat → Prop) → Prop
  | .ret a, b, Q => Q a b
  | .read _ k, b, Q => (acc = true ∨ 1 ≤ b) ∧ ∀ x, gw acc K g (k x) (bif acc then K else b - 1) Q
  | .write _ _ k, b, Q => (acc = true ∨ 1 ≤ b) ∧ gw acc K g k (bif acc then K else b - 1) Q
  | .less _ _ _ _ k, b, Q => (acc = false ∨ 1 ≤ b) ∧ ∀ x, gw acc K g (k x) (bif acc then b - 1 else K) Q
  | .maxGor k, b, Q => 1 ≤ b ∧ ∀ x, gw acc K g (k x) (b - 1) Q
  | .loadGor k, b, Q => 1 ≤ b ∧ ∀ x, gw acc K g (k x) (b - 1) Q
  | .incGor k, b, Q => 1 ≤ b ∧ ∀ x, gw acc K g (k x) (b - 1) Q
  | .decGor k, b, Q => 1 ≤ b ∧ ∀ x, gw acc K g (k x) (b - 1) Q
  | .mkSync k, b, Q => 1 ≤ b ∧ gw acc K g k (b - 1) Q
  | .go _ k, b, Q => 1 + g ≤ b ∧ gw acc K g k (b - (1 + g)) Q
  | .send _ k, b, Q => 1 ≤ b ∧ gw acc K g k (b - 1) Q
  | .recv k, b, Q => 1 ≤ b ∧ ∀ x, gw acc K g (k x) (b - 1) Q
  | .panic, _, _ => True
  | .overflow, _, _ => True
  | .diverge, _, _ => True

theorem gw.mono {p : Prog V Sp α} : ∀ {b : Nat} {Q Q' : α → Nat → Prop}, gw acc K g p b Q → (∀ a b, Q a b → Q' a b) → gw acc K g p b Q' := by
  induction p with
  | ret a => intro b Q Q' h hQ; exact hQ _ _ h
  | read i k ih => intro b Q Q' h hQ; exact ⟨h.1, fun x => ih x (h.2 x) hQ⟩
  | write i v k ih => intro b Q Q' h hQ; exact ⟨h.1, ih h.2 hQ⟩
  | less i j x y k ih => intro b Q Q' h hQ; exact ⟨h.1, fun x => ih x (h.2 x) hQ⟩
  | maxGor k ih => intro b Q Q' h hQ; exact ⟨h.1, fun x => ih x (h.2 x) hQ⟩
  | loadGor k ih => intro b Q Q' h hQ; exact ⟨h.1, fun x => ih x (h.2 x) hQ⟩
  | incGor k ih => intro b Q Q' h hQ; exact ⟨h.1, fun x => ih x (h.2 x) hQ⟩
  | decGor k ih => intro b Q Q' h hQ; exact ⟨h.1, fun x => ih x (h.2 x) hQ⟩
  | mkSync k ih => intro b Q Q' h hQ; exact ⟨h.1, ih h.2 hQ⟩
  | go s k ih => intro b Q Q' h hQ; exact ⟨h.1, ih h.2 hQ⟩
  | send v k ih => intro b Q Q' h hQ; exact ⟨h.1, ih h.2 hQ⟩
  | recv k ih => intro b Q Q' h hQ; exact ⟨h.1, fun x => ih x (h.2 x) hQ⟩
  | _ => intros; trivial

theorem gw.bind {p : Prog V Sp α} {f : α → Prog V Sp β} : ∀ {b : Nat} {Q : β → Nat → Prop},
    gw acc K g p b (fun a b => gw acc K g (f a) b Q) → gw acc K g (p >>= f) b Q := by
  simp only [Prog.bind_def]
  induction p with
  | ret a => intro b Q h; exact h
  | read i k ih => intro b Q h; exact ⟨h.1, fun x => ih x (h.2 x)⟩
  | write i v k ih => intro b Q h; exact ⟨h.1, ih h.2⟩
  | less i j x y k ih => intro b Q h; exact ⟨h.1, fun x => ih x (h.2 x)⟩
  | maxGor k ih => intro b Q h; exact ⟨h.1, fun x => ih x (h.2 x)⟩
  | loadGor k ih => intro b Q h; exact ⟨h.1, fun x => ih x (h.2 x)⟩
  | incGor k ih => intro b Q h; exact ⟨h.1, fun x => ih x (h.2 x)⟩
  | decGor k ih => intro b Q h; exact ⟨h.1, fun x => ih x (h.2 x)⟩
  | mkSync k ih => intro b Q h; exact ⟨h.1, ih h.2⟩
  | go s k ih => intro b Q h; exact ⟨h.1, ih h.2⟩
  | send v k ih => intro b Q h; exact ⟨h.1, ih h.2⟩
  | recv k ih => intro b Q h; exact ⟨h.1, fun x => ih x (h.2 x)⟩
  | _ => intros; trivial

/-- from a budget of `c` or more the program leaves `e` or more -/
def Prog.Leaves (acc : Bool) (K g c e : Nat) (p : Prog V Sp α) : Prop := ∀ b, c ≤ b → gw acc K g p b fun _ b' => e ≤ b'

variable {c d e : Nat}

theorem Prog.Leaves.bind {p : Prog V Sp α} {f : α → Prog V Sp β} (h : p.Leaves acc K g c d) (hf : ∀ a, (f a).Leaves acc K g d e) :
    (p >>= f).Leaves acc K g c e := fun b hb => ((h b hb).mono fun a b' hb' => hf a b' hb').bind

theorem Prog.Leaves.weaken {p : Prog V Sp α} {c' e' : Nat} (h : p.Leaves acc K g c e) (hc : c ≤ c') (he : e' ≤ e) : p.Leaves acc K g c' e' :=
  fun b hb => (h b (hc.trans hb)).mono fun _ _ hb' => he.trans hb'

theorem leaves_pure {a : α} (h : e ≤ c) : (pure a : Prog V Sp α).Leaves acc K g c e := fun _ hb => h.trans hb

theorem leaves_loop {σ : Type} {body : σ → Prog V Sp (Ctl σ α)} (h : ∀ s, (body s).Leaves acc K g c c) :
    ∀ n s, (Prog.loop n body s : Prog V Sp α).Leaves acc K g c c
  | 0, _ => fun _ _ => trivial
  | n + 1, s => by
    refine (h s).bind fun x => ?_
    cases x with
    | again s' => exact leaves_loop h n s'
    | brk a => exact leaves_pure le_rfl

/-- events counted along an execution pay for its steps -/
theorem gap_steps {P : Par V Sp} {p : Prog V Sp Unit} {m : Mem V} {b0 : Nat} (hp : gw acc K g p b0 fun _ _ => True)
    (hbody : ∀ s, gw acc K g (P.body s) g fun _ _ => True) {c : Cfg V Sp} {n k : Nat}
    (h : WSteps P (fun p => bif acc then p.accs else p.asks) (start p m) c n k) :
    ∃ ts : List (Prog V Sp Unit × Nat),
      c.ths = ts.map Prod.fst ∧ (∀ t ∈ ts, gw acc K g t.1 t.2 fun _ _ => True) ∧ n + (ts.map Prod.snd).sum ≤ (K + 1) * k + b0 := by
  induction h with
  | refl => exact ⟨[(p, b0)], rfl, by simpa using hp, by simp⟩
  | @tau n k l₁ l₂ sh p sh' p' new _ ht ih =>
      obtain ⟨ts, hts, hw, hn⟩ := ih
      obtain ⟨L₁, L₂', rfl, rfl, h2⟩ := List.map_eq_append_iff.1 hts.symm
      obtain ⟨⟨q, b⟩, L₂, rfl, rfl, rfl⟩ := List.map_eq_cons_iff.1 h2
      have hg : gw acc K g q b fun _ _ => True := hw (q, b) (by simp)
      have key : ∃ (b' : Nat) (ns : List (Prog V Sp Unit × Nat)), new = ns.map Prod.fst ∧ (∀ t ∈ ns, gw acc K g t.1 t.2 fun _ _ => True) ∧
          (gw acc K g p' b' fun _ _ => True) ∧ 1 + b' + (ns.map Prod.snd).sum ≤ b + (K + 1) * (bif acc then q.accs else q.asks) := by
        cases ht with
        | read i f =>
          refine ⟨_, [], rfl, by simp, hg.2 _, ?_⟩
          cases acc <;> simp [Prog.accs, Prog.asks]
          · have := hg.1; simp at this; omega
          · omega
        | write i v f =>
          refine ⟨_, [], rfl, by simp, hg.2, ?_⟩
          cases acc <;> simp [Prog.accs, Prog.asks]
          · have := hg.1; simp at this; omega
          · omega
        | less i j x y f r hr =>
          refine ⟨_, [], rfl, by simp, hg.2 _, ?_⟩
          cases acc <;> simp [Prog.accs, Prog.asks]
          · omega
          · have := hg.1; simp at this; omega
        | maxGor f n hn => exact ⟨b - 1, [], rfl, by simp, hg.2 _, by have := hg.1; simp; omega⟩
        | loadGor f n _ _ => exact ⟨b - 1, [], rfl, by simp, hg.2 _, by have := hg.1; simp; omega⟩
        | loadNil f _ => exact ⟨b - 1, [], rfl, by simp, trivial, by have := hg.1; simp; omega⟩
        | incGor f _ => exact ⟨b - 1, [], rfl, by simp, hg.2 _, by have := hg.1; simp; omega⟩
        | incNil f _ => exact ⟨b - 1, [], rfl, by simp, trivial, by have := hg.1; simp; omega⟩
        | decGor f _ => exact ⟨b - 1, [], rfl, by simp, hg.2 _, by have := hg.1; simp; omega⟩
        | decNil f _ => exact ⟨b - 1, [], rfl, by simp, trivial, by have := hg.1; simp; omega⟩
        | mkSync f => exact ⟨b - 1, [], rfl, by simp, hg.2, by have := hg.1; simp; omega⟩
        | go s f => exact ⟨b - (1 + g), [(P.body s, g)], rfl, by simpa using hbody s, hg.2, by have := hg.1; simp; omega⟩
      obtain ⟨b', ns, rfl, hns, hb', hs⟩ := key
      refine ⟨L₁ ++ (p', b') :: L₂ ++ ns, by simp, ?_, ?_⟩
      · intro t htm
        simp only [List.append_assoc, List.cons_append, List.mem_append, List.mem_cons] at htm
        rcases htm with htm | rfl | htm | htm
        · exact hw t (by simp [htm])
        · exact hb'
        · exact hw t (by simp [htm])
        · exact hns t htm
      · simp only [List.map_append, List.map_cons, List.sum_append, List.sum_cons, Nat.mul_add] at hn hs ⊢
        omega
  | @commSR n k l₁ l₂ l₃ sh v f f' _ hsy ih =>
      obtain ⟨ts, hts, hw, hn⟩ := ih
      simp only [List.append_assoc, List.cons_append] at hts
      obtain ⟨L₁, X, rfl, rfl, h2⟩ := List.map_eq_append_iff.1 hts.symm
      obtain ⟨⟨q, b⟩, Y, rfl, h3, h4⟩ := List.map_eq_cons_iff.1 h2
      obtain ⟨L₂, Z, rfl, rfl, h5⟩ := List.map_eq_append_iff.1 h4
      obtain ⟨⟨q', b'⟩, L₃, rfl, h6, rfl⟩ := List.map_eq_cons_iff.1 h5
      dsimp only at h3 h6
      subst h3 h6
      have hg : gw acc K g (.send v f) b fun _ _ => True := hw (_, b) (by simp)
      have hg' : gw acc K g (.recv f') b' fun _ _ => True := hw (_, b') (by simp)
      have e := hg.1
      have e' := hg'.1
      refine ⟨L₁ ++ (f, b - 1) :: (L₂ ++ (f' v, b' - 1) :: L₃), by simp, ?_, ?_⟩
      · intro t htm
        simp only [List.mem_append, List.mem_cons] at htm
        rcases htm with htm | rfl | htm | rfl | htm
        · exact hw t (by simp [htm])
        · exact hg.2
        · exact hw t (by simp [htm])
        · exact hg'.2 v
        · exact hw t (by simp [htm])
      · simp only [List.map_append, List.map_cons, List.sum_append, List.sum_cons] at hn ⊢
        omega
  | @commRS n k l₁ l₂ l₃ sh v f f' _ hsy ih =>
      obtain ⟨ts, hts, hw, hn⟩ := ih
      simp only [List.append_assoc, List.cons_append] at hts
      obtain ⟨L₁, X, rfl, rfl, h2⟩ := List.map_eq_append_iff.1 hts.symm
      obtain ⟨⟨q', b'⟩, Y, rfl, h3, h4⟩ := List.map_eq_cons_iff.1 h2
      obtain ⟨L₂, Z, rfl, rfl, h5⟩ := List.map_eq_append_iff.1 h4
      obtain ⟨⟨q, b⟩, L₃, rfl, h6, rfl⟩ := List.map_eq_cons_iff.1 h5
      dsimp only at h3 h6
      subst h3 h6
      have hg : gw acc K g (.send v f) b fun _ _ => True := hw (_, b) (by simp)
      have hg' : gw acc K g (.recv f') b' fun _ _ => True := hw (_, b') (by simp)
      have e := hg.1
      have e' := hg'.1
      refine ⟨L₁ ++ (f' v, b' - 1) :: (L₂ ++ (f, b - 1) :: L₃), by simp, ?_, ?_⟩
      · intro t htm
        simp only [List.mem_append, List.mem_cons] at htm
        rcases htm with htm | rfl | htm | rfl | htm
        · exact hw t (by simp [htm])
        · exact hg'.2 v
        · exact hw t (by simp [htm])
        · exact hg.2
        · exact hw t (by simp [htm])
      · simp only [List.map_append, List.map_cons, List.sum_append, List.sum_cons] at hn ⊢
        omega

end Sorty
