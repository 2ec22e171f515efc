import Verif.Logic.WP
import Mathlib.Logic.Equiv.Basic
import Mathlib.Algebra.Group.End

/-! # Sequential program logic

`swp cmp W R p m Q`: `p` uses no concurrency, writes only inside `W`, reads only inside `W ∪ R`, does not panic and
ends with `Q`. -/

namespace Sorty

variable {V Sp Sp' α β : Type}

def swp (cmp : Nat → Nat → V → V → Bool → Prop) (W R : Set Nat) : Prog V Sp α → Mem V → (α → Mem V → Prop) → Prop
  | .ret a, m, Q => Q a m
  | .read i k, m, Q => (i ∈ W ∨ i ∈ R) ∧ swp cmp W R (k (m i)) m Q
  | .write i v k, m, Q => i ∈ W ∧ swp cmp W R k (Function.update m i v) Q
  | .less i j x y k, m, Q => (∃ b, cmp i j x y b) ∧ ∀ b, cmp i j x y b → swp cmp W R (k b) m Q
  | _, _, _ => False

variable {cmp : Nat → Nat → V → V → Bool → Prop} {W R : Set Nat}

theorem swp_mono {p : Prog V Sp α} : ∀ {m} {Q Q' : α → Mem V → Prop},
    swp cmp W R p m Q → (∀ a m, Q a m → Q' a m) → swp cmp W R p m Q' := by
  induction p with
  | ret a => intro m Q Q' h hQ; exact hQ _ _ h
  | read i k ih => intro m Q Q' h hQ; exact ⟨h.1, ih _ h.2 hQ⟩
  | write i v k ih => intro m Q Q' h hQ; exact ⟨h.1, ih h.2 hQ⟩
  | less i j x y k ih => intro m Q Q' h hQ; exact ⟨h.1, fun b hb => ih _ (h.2 b hb) hQ⟩
  | _ => intro m Q Q' h; exact h.elim

theorem swp_bind {p : Prog V Sp α} {f : α → Prog V Sp β} : ∀ {m} {Q : β → Mem V → Prop},
    swp cmp W R p m (fun a m => swp cmp W R (f a) m Q) → swp cmp W R (p >>= f) m Q := by
  simp only [Prog.bind_def]
  induction p with
  | ret a => intro m Q h; exact h
  | read i k ih => intro m Q h; exact ⟨h.1, ih _ h.2⟩
  | write i v k ih => intro m Q h; exact ⟨h.1, ih h.2⟩
  | less i j x y k ih => intro m Q h; exact ⟨h.1, fun b hb => ih _ (h.2 b hb)⟩
  | _ => intro m Q h; exact h.elim

theorem swp_loop {σ : Type} (body : σ → Prog V Sp (Prog.Ctl σ α)) (Q : α → Mem V → Prop)
    (I : σ → Mem V → Prop) (μ : σ → Nat)
    (hstep : ∀ s m, I s m → swp cmp W R (body s) m fun c m =>
      match c with
      | .again s' => I s' m ∧ μ s' < μ s
      | .brk a => Q a m) :
    ∀ n s m, I s m → μ s < n → swp cmp W R (Prog.loop n body s) m Q := by
  intro n
  induction n with
  | zero => intro s m _ h; omega
  | succ n ih =>
    intro s m hI hμ
    apply swp_bind
    refine swp_mono (hstep s m hI) ?_
    rintro (s' | a) m h
    · exact ih s' m h.1 (by have := h.2; omega)
    · exact h

theorem swp_wp {S : Spec V Sp} {g : Gh V Sp} (hc : ∀ i j x y b, S.cmp i j x y b → cmp i j x y b)
    (hph : g.ph = .run) (hW : W ⊆ g.W) (hR : R ⊆ g.W ∪ g.R)
    {p : Prog V Sp α} : ∀ {m} {Q : α → Mem V → Prop},
    swp cmp W R p m Q → wp S p g m (fun a g' m' => g' = g ∧ Q a m') := by
  induction p with
  | ret a => intro m Q h; exact ⟨rfl, h⟩
  | read i k ih =>
    intro m Q h
    have hi : i ∈ g.W ∪ g.R := by
      rcases h.1 with h | h
      · exact .inl (hW h)
      · exact hR h
    exact ⟨⟨hph, .inl hi⟩, fun v hv => hv hi ▸ ih _ h.2⟩
  | write i v k ih => intro m Q h; exact ⟨⟨hph, hW h.1⟩, ih h.2⟩
  | less i j x y k ih => intro m Q h; exact ⟨hph, fun b hb => ih _ (h.2 b (hc _ _ _ _ _ hb))⟩
  | _ => intro m Q h; exact h.elim

theorem swp_evalLocal {p : Prog V Sp α} : ∀ {m} {Q : α → Mem V → Prop},
    swp (fun _ _ _ _ _ => False) W R p m Q → ∃ a m', p.evalLocal m = some (a, m') ∧ Q a m' := by
  induction p with
  | ret a => intro m Q h; exact ⟨a, m, rfl, h⟩
  | read i k ih => intro m Q h; exact ih _ h.2
  | write i v k ih => intro m Q h; exact ih h.2
  | less i j x y k ih => intro m Q h; obtain ⟨⟨b, hb⟩, _⟩ := h; exact hb.elim
  | _ => intro m Q h; exact h.elim

theorem swp_subset {W' R' : Set Nat} (hW : W ⊆ W') (hR : R ⊆ W' ∪ R')
    {p : Prog V Sp α} : ∀ {m} {Q : α → Mem V → Prop}, swp cmp W R p m Q → swp cmp W' R' p m Q := by
  induction p with
  | ret a => intro m Q h; exact h
  | read i k ih =>
    intro m Q h
    refine ⟨?_, ih _ h.2⟩
    rcases h.1 with h | h
    · exact .inl (hW h)
    · exact hR h
  | write i v k ih => intro m Q h; exact ⟨hW h.1, ih h.2⟩
  | less i j x y k ih => intro m Q h; exact ⟨h.1, fun b hb => ih _ (h.2 b hb)⟩
  | _ => intro m Q h; exact h.elim

/-! ## Slices -/

namespace Slice

/-- addresses of a slice -/
def rng (s : Slice) : Set Nat := {a | s.off ≤ a ∧ a < s.off + s.len}

/-- element at an index -/
def E (s : Slice) (m : Mem V) (i : Int) : V := m (s.off + i.toNat)

theorem mem_rng {s : Slice} {i : Int} (h0 : 0 ≤ i) (h1 : i < s.len) : s.off + i.toNat ∈ s.rng := by
  simp only [rng, Set.mem_ofPred_eq]; omega

theorem E_update {s : Slice} {m : Mem V} {i j : Int} {v : V} (hi : 0 ≤ i) (hj : 0 ≤ j) :
    s.E (Function.update m (s.off + i.toNat) v) j = if j = i then v else s.E m j := by
  unfold E
  by_cases h : j = i
  · subst h; simp
  · have : s.off + j.toNat ≠ s.off + i.toNat := by omega
    rw [Function.update_of_ne this, if_neg h]

theorem swp_rd {s : Slice} {i : Int} {m : Mem V} {Q : V → Mem V → Prop} (h0 : 0 ≤ i) (h1 : i < s.len)
    (hs : s.rng ⊆ W ∪ R) (h : Q (s.E m i) m) : swp cmp W R (s.rd i : Prog V Sp V) m Q := by
  unfold rd
  rw [if_pos ⟨h0, h1⟩]
  exact ⟨hs (mem_rng h0 h1), h⟩

theorem swp_wr {s : Slice} {i : Int} {m : Mem V} {v : V} {Q : Unit → Mem V → Prop} (h0 : 0 ≤ i) (h1 : i < s.len)
    (hs : s.rng ⊆ W) (h : Q () (Function.update m (s.off + i.toNat) v)) :
    swp cmp W R (s.wr i v : Prog V Sp Unit) m Q := by
  unfold wr
  rw [if_pos ⟨h0, h1⟩]
  exact ⟨hs (mem_rng h0 h1), h⟩

theorem swp_rd' {s : Slice} {i : Int} {m : Mem V} {Q : V → Mem V → Prop} (h0 : 0 ≤ i) (h1 : i < s.len)
    (hs : s.off + i.toNat ∈ W ∪ R) (h : Q (s.E m i) m) : swp cmp W R (s.rd i : Prog V Sp V) m Q := by
  unfold rd
  rw [if_pos ⟨h0, h1⟩]
  exact ⟨hs, h⟩

theorem swp_wr' {s : Slice} {i : Int} {m : Mem V} {v : V} {Q : Unit → Mem V → Prop} (h0 : 0 ≤ i) (h1 : i < s.len)
    (hs : s.off + i.toNat ∈ W) (h : Q () (Function.update m (s.off + i.toNat) v)) :
    swp cmp W R (s.wr i v : Prog V Sp Unit) m Q := by
  unfold wr
  rw [if_pos ⟨h0, h1⟩]
  exact ⟨hs, h⟩

/-- memory after a swap -/
def swapM (s : Slice) (m : Mem V) (i j : Int) : Mem V :=
  Function.update (Function.update m (s.off + i.toNat) (s.E m j)) (s.off + j.toNat) (s.E m i)

theorem swp_swap {s : Slice} {i j : Int} {m : Mem V} {Q : Unit → Mem V → Prop} (h0 : 0 ≤ i) (h1 : i < s.len)
    (h2 : 0 ≤ j) (h3 : j < s.len) (hs : s.rng ⊆ W) (h : Q () (s.swapM m i j)) :
    swp cmp W R (s.swap i j : Prog V Sp Unit) m Q := by
  have hs' : s.rng ⊆ W ∪ R := hs.trans Set.subset_union_left
  unfold swap
  refine swp_bind (swp_rd h2 h3 hs' (swp_bind (swp_rd h0 h1 hs' (swp_bind (swp_wr h0 h1 hs (swp_wr h2 h3 hs h))))))

theorem swp_swap' {s : Slice} {i j : Int} {m : Mem V} {Q : Unit → Mem V → Prop} (h0 : 0 ≤ i) (h1 : i < s.len)
    (h2 : 0 ≤ j) (h3 : j < s.len) (hi : s.off + i.toNat ∈ W) (hj : s.off + j.toNat ∈ W) (h : Q () (s.swapM m i j)) :
    swp cmp W R (s.swap i j : Prog V Sp Unit) m Q := by
  unfold swap
  exact swp_bind (swp_rd' h2 h3 (.inl hj) (swp_bind (swp_rd' h0 h1 (.inl hi)
    (swp_bind (swp_wr' h0 h1 hi (swp_wr' h2 h3 hj h))))))

theorem E_swapM {s : Slice} {m : Mem V} {i j x : Int} (hi : 0 ≤ i) (hj : 0 ≤ j) (hx : 0 ≤ x) :
    s.E (s.swapM m i j) x = if x = j then s.E m i else if x = i then s.E m j else s.E m x := by
  unfold swapM
  rw [E_update hj hx, E_update hi hx]

theorem swp_sub {s : Slice} {lo hi : Int} {m : Mem V} {Q : Slice → Mem V → Prop} (h0 : 0 ≤ lo) (h1 : lo ≤ hi)
    (h2 : hi ≤ s.len) (h : Q ⟨s.off + lo.toNat, (hi - lo).toNat⟩ m) :
    swp cmp W R (s.sub lo hi : Prog V Sp Slice) m Q := by
  unfold sub
  rw [if_pos ⟨h0, h1, h2⟩]
  exact h

end Slice

/-! ## Permutations -/

/-- `m'` results from `m` by rearranging the cells of `F` -/
def RP (F : Set Nat) (m m' : Mem V) : Prop :=
  ∃ σ : Equiv.Perm Nat, (∀ i, i ∉ F → σ i = i) ∧ ∀ i, m' i = m (σ i)

/-- on `F`, `m'` is a rearrangement of `m` -/
def RPon (F : Set Nat) (m m' : Mem V) : Prop :=
  ∃ σ : Equiv.Perm Nat, (∀ i, i ∉ F → σ i = i) ∧ ∀ i ∈ F, m' i = m (σ i)

theorem perm_mem {F : Set Nat} {σ : Equiv.Perm Nat} (h : ∀ i, i ∉ F → σ i = i) {i : Nat} (hi : i ∈ F) : σ i ∈ F := by
  by_contra hn
  have := h _ hn
  exact hn (by rw [σ.injective this]; exact hi)

theorem perm_symm {F : Set Nat} {σ : Equiv.Perm Nat} (h : ∀ i, i ∉ F → σ i = i) (i : Nat) (hi : i ∉ F) : σ.symm i = i := by
  rw [Equiv.symm_apply_eq, h i hi]

theorem RP.refl (F : Set Nat) (m : Mem V) : RP F m m := ⟨1, fun _ _ => rfl, fun _ => rfl⟩

theorem RP.trans {F : Set Nat} {m m' m'' : Mem V} (h : RP F m m') (h' : RP F m' m'') : RP F m m'' := by
  obtain ⟨σ, h1, h2⟩ := h
  obtain ⟨τ, h3, h4⟩ := h'
  refine ⟨σ * τ, fun i hi => ?_, fun i => ?_⟩
  · rw [Equiv.Perm.mul_apply, h3 i hi, h1 i hi]
  · rw [h4, h2]; rfl

theorem RP.mono {F F' : Set Nat} {m m' : Mem V} (h : RP F m m') (hF : F ⊆ F') : RP F' m m' := by
  obtain ⟨σ, h1, h2⟩ := h
  exact ⟨σ, fun i hi => h1 i fun hh => hi (hF hh), h2⟩

theorem RP.out {F : Set Nat} {m m' : Mem V} (h : RP F m m') {i : Nat} (hi : i ∉ F) : m' i = m i := by
  obtain ⟨σ, h1, h2⟩ := h
  rw [h2, h1 i hi]

theorem RP.on {F : Set Nat} {m m' : Mem V} (h : RP F m m') : RPon F m m' := by
  obtain ⟨σ, h1, h2⟩ := h
  exact ⟨σ, h1, fun i _ => h2 i⟩

theorem RP.symm {F : Set Nat} {m m' : Mem V} (h : RP F m m') : RP F m' m := by
  obtain ⟨σ, h1, h2⟩ := h
  refine ⟨σ.symm, perm_symm h1, fun i => ?_⟩
  rw [h2, Equiv.apply_symm_apply]

theorem RP.all {F : Set Nat} {m m' : Mem V} (h : RP F m m') {p : V → Prop} (hp : ∀ i ∈ F, p (m i)) : ∀ i ∈ F, p (m' i) := by
  obtain ⟨σ, h1, h2⟩ := h
  intro i hi
  rw [h2]
  exact hp _ (perm_mem h1 hi)

theorem RP.swap {F : Set Nat} {m : Mem V} {a b : Nat} (ha : a ∈ F) (hb : b ∈ F) :
    RP F m (Function.update (Function.update m a (m b)) b (m a)) := by
  refine ⟨Equiv.swap a b, fun i hi => ?_, fun i => ?_⟩
  · exact Equiv.swap_apply_of_ne_of_ne (fun h => hi (h ▸ ha)) (fun h => hi (h ▸ hb))
  · by_cases h : i = b
    · subst h; simp
    · by_cases h' : i = a
      · subst h'; simp [h]
      · simp [h, h', Equiv.swap_apply_of_ne_of_ne h' h]

theorem RP.swapM {s : Slice} {m : Mem V} {i j : Int} (h0 : 0 ≤ i) (h1 : i < s.len) (h2 : 0 ≤ j) (h3 : j < s.len) :
    RP s.rng m (s.swapM m i j) := RP.swap (Slice.mem_rng h0 h1) (Slice.mem_rng h2 h3)

theorem RPon.refl (F : Set Nat) (m : Mem V) : RPon F m m := (RP.refl F m).on

theorem RPon.congr {F : Set Nat} {m m' m1 m1' : Mem V} (h : RPon F m m') (h1 : Agree F m m1) (h2 : Agree F m' m1') :
    RPon F m1 m1' := by
  obtain ⟨σ, h3, h4⟩ := h
  refine ⟨σ, h3, fun i hi => ?_⟩
  rw [← h2 i hi, h4 i hi, h1 _ (perm_mem h3 hi)]

theorem RPon.trans {F : Set Nat} {m m' m'' : Mem V} (h : RPon F m m') (h' : RPon F m' m'') : RPon F m m'' := by
  obtain ⟨σ, h1, h2⟩ := h
  obtain ⟨τ, h3, h4⟩ := h'
  refine ⟨σ * τ, fun i hi => ?_, fun i hi => ?_⟩
  · rw [Equiv.Perm.mul_apply, h3 i hi, h1 i hi]
  · rw [h4 i hi, h2 _ (perm_mem h3 hi)]; rfl

theorem RPon.all {F : Set Nat} {m m' : Mem V} (h : RPon F m m') {p : V → Prop} (hp : ∀ i ∈ F, p (m i)) : ∀ i ∈ F, p (m' i) := by
  obtain ⟨σ, h1, h2⟩ := h
  intro i hi
  rw [h2 i hi]
  exact hp _ (perm_mem h1 hi)

/-- rearrangements of two disjoint parts make a rearrangement of the union -/
theorem RPon.union {A B : Set Nat} {m m' : Mem V} (hd : Disjoint A B) (hA : RPon A m m') (hB : RPon B m m') :
    RPon (A ∪ B) m m' := by
  obtain ⟨σ, h1, h2⟩ := hA
  obtain ⟨τ, h3, h4⟩ := hB
  refine ⟨σ * τ, fun i hi => ?_, fun i hi => ?_⟩
  · simp only [Set.mem_union, not_or] at hi
    rw [Equiv.Perm.mul_apply, h3 i hi.2, h1 i hi.1]
  · rw [Equiv.Perm.mul_apply]
    rcases hi with hi | hi
    · rw [h3 i (Set.disjoint_left.1 hd hi), h2 i hi]
    · rw [h1 _ (Set.disjoint_right.1 hd (perm_mem h3 hi)), h4 i hi]

end Sorty
