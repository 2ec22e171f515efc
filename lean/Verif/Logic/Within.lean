import Verif.Logic.Most

/-! # Runs within a set of addresses, and runs that do the same on other elements -/

namespace Sorty

open Prog

variable {V V' Sp α β : Type} {A : Set Nat}

/-- `p` runs from `m` to its result `a` and memory `m'`, with `n` loads and stores, all of them in `A` -/
inductive TIn (A : Set Nat) : Prog V Sp α → Mem V → Nat → α → Mem V → Prop
  | ret (a m) : TIn A (.ret a) m 0 a m
  | read {i k m n a m'} : i ∈ A → TIn A (k (m i)) m n a m' → TIn A (.read i k) m (n + 1) a m'
  | write {i v k m n a m'} : i ∈ A → TIn A k (Function.update m i v) n a m' → TIn A (.write i v k) m (n + 1) a m'

theorem TIn.runs {p : Prog V Sp α} {m m' : Mem V} {n : Nat} {a : α} (h : TIn A p m n a m') : TRuns p m n a m' := by
  induction h with
  | ret a m => exact .ret a m
  | read _ _ ih => exact .read ih
  | write _ _ ih => exact .write ih

theorem TIn.mono {B : Set Nat} (hAB : A ⊆ B) {p : Prog V Sp α} {m m' : Mem V} {n : Nat} {a : α} (h : TIn A p m n a m') : TIn B p m n a m' := by
  induction h with
  | ret a m => exact .ret a m
  | read hi _ ih => exact .read (hAB hi) ih
  | write hi _ ih => exact .write (hAB hi) ih

theorem TIn.bind {p : Prog V Sp α} {f : α → Prog V Sp β} {m m1 m2 : Mem V} {n k : Nat} {a : α} {b : β} (h : TIn A p m n a m1)
    (hf : TIn A (f a) m1 k b m2) : TIn A (p >>= f) m (n + k) b m2 := by
  simp only [Prog.bind_def]
  induction h with
  | ret a m => rw [Nat.zero_add]; exact hf
  | @read i k' m n a m' hi _ ih =>
    rw [show n + 1 + k = n + k + 1 by omega]
    exact .read hi (ih hf)
  | @write i v k' m n a m' hi _ ih =>
    rw [show n + 1 + k = n + k + 1 by omega]
    exact .write hi (ih hf)

theorem TIn.again {σ : Type} {body : σ → Prog V Sp (Ctl σ α)} {f n k : Nat} {s s' : σ} {m m1 m2 : Mem V} {a : α}
    (h : TIn A (body s) m n (.again s') m1) (h' : TIn A (loop f body s') m1 k a m2) : TIn A (loop (f + 1) body s) m (n + k) a m2 :=
  TIn.bind h h'

theorem TIn.brk {σ : Type} {body : σ → Prog V Sp (Ctl σ α)} {f n : Nat} {s : σ} {m m1 : Mem V} {a : α}
    (h : TIn A (body s) m n (.brk a) m1) : TIn A (loop (f + 1) body s) m n a m1 := by
  have := TIn.bind h (f := fun c => match c with | .again s' => loop f body s' | .brk a => .ret a) (.ret a m1)
  exact this

/-- memory elsewhere does not matter -/
theorem TIn.frame {p : Prog V Sp α} {m m' : Mem V} {n : Nat} {a : α} (h : TIn A p m n a m') :
    ∀ {m1 : Mem V}, Agree A m m1 → ∃ m1', TIn A p m1 n a m1' ∧ Agree A m' m1' := by
  induction h with
  | ret a m => intro m1 ha; exact ⟨m1, .ret _ _, ha⟩
  | @read i k m n a m' hi _ ih =>
    intro m1 ha
    obtain ⟨m1', h1, h2⟩ := ih ha
    rw [ha i hi] at h1
    exact ⟨m1', .read hi h1, h2⟩
  | @write i v k m n a m' hi _ ih =>
    intro m1 ha
    obtain ⟨m1', h1, h2⟩ := ih (m1 := Function.update m1 i v) (by
      intro j hj
      simp only [Function.update_apply]
      split_ifs
      · rfl
      · exact ha j hj)
    exact ⟨m1', .write hi h1, h2⟩

/-- a run from the logic of sequential code -/
theorem tin_of {cmp : Nat → Nat → V → V → Bool → Prop} (hc : ∀ i j x y b, ¬ cmp i j x y b) {p : Prog V Sp α} :
    ∀ {m} {K : α → Mem V → Prop}, swp cmp A ∅ p m K → ∃ k a m', TIn A p m k a m' ∧ K a m' := by
  induction p with
  | ret a => intro m K h; exact ⟨0, a, m, .ret _ _, h⟩
  | read i k ih =>
    intro m K h
    obtain ⟨j, a, m', e, h3⟩ := ih _ h.2
    exact ⟨j + 1, a, m', .read (h.1.resolve_right (by simp)) e, h3⟩
  | write i v k ih =>
    intro m K h
    obtain ⟨j, a, m', e, h3⟩ := ih h.2
    exact ⟨j + 1, a, m', .write h.1 e, h3⟩
  | less i j x y k ih =>
    intro m K h
    obtain ⟨b, hb⟩ := h.1
    exact absurd hb (hc _ _ _ _ _)
  | _ => intro m K h; exact h.elim

open Classical in
/-- the number of loads and stores of the run of `p` from `m` -/
noncomputable def tcost (p : Prog V Sp α) (m : Mem V) : Nat :=
  if h : ∃ n a m', TRuns p m n a m' then h.choose else 0

theorem tcost_eq {p : Prog V Sp α} {m m' : Mem V} {n : Nat} {a : α} (h : TRuns p m n a m') : tcost p m = n := by
  have hex : ∃ n a m', TRuns p m n a m' := ⟨n, a, m', h⟩
  unfold tcost
  rw [dif_pos hex]
  obtain ⟨a', m1, h1⟩ := hex.choose_spec
  exact (h1.det h).1

/-- `p` does on elements what `p'` does on their names; `g` gives the element of a name, the names are those in `N` -/
inductive NSim (g : V' → V) (N : Set V') : Prog V' Sp α → Prog V Sp α → Prop
  | ret (a) : NSim g N (.ret a) (.ret a)
  | read {i k' k} : (∀ x ∈ N, NSim g N (k' x) (k (g x))) → NSim g N (.read i k') (.read i k)
  | write {i x k' k} : x ∈ N → NSim g N k' k → NSim g N (.write i x k') (.write i (g x) k)
  | panic : NSim g N .panic .panic
  | diverge : NSim g N .diverge .diverge

variable {g : V' → V} {N : Set V'}

theorem NSim.bind {p' : Prog V' Sp α} {p : Prog V Sp α} {f' : α → Prog V' Sp β} {f : α → Prog V Sp β} (h : NSim g N p' p)
    (hf : ∀ a, NSim g N (f' a) (f a)) : NSim g N (p' >>= f') (p >>= f) := by
  simp only [Prog.bind_def]
  induction h with
  | ret a => exact hf a
  | read _ ih => exact .read ih
  | write hx _ ih => exact .write hx ih
  | panic => exact .panic
  | diverge => exact .diverge

theorem NSim.loop {σ : Type} {body' : σ → Prog V' Sp (Ctl σ α)} {body : σ → Prog V Sp (Ctl σ α)} (h : ∀ s, NSim g N (body' s) (body s)) :
    ∀ n s, NSim g N (Prog.loop n body' s) (Prog.loop n body s) := by
  intro n
  induction n with
  | zero => intro s; exact .diverge
  | succ n ih =>
    intro s
    refine NSim.bind (h s) ?_
    rintro (s' | a)
    · exact ih s'
    · exact .ret a

theorem NSim.rd {s : Slice} {i : Int} {f' : V' → Prog V' Sp β} {f : V → Prog V Sp β} (hf : ∀ x ∈ N, NSim g N (f' x) (f (g x))) :
    NSim g N (s.rd i >>= f') (s.rd i >>= f) := by
  unfold Slice.rd
  split_ifs with h
  · exact .read hf
  · exact .panic

theorem NSim.wr {s : Slice} {i : Int} {x : V'} (hx : x ∈ N) : NSim g N (s.wr i x : Prog V' Sp Unit) (s.wr i (g x)) := by
  unfold Slice.wr
  split_ifs with h
  · exact .write hx (.ret _)
  · exact .panic

theorem NSim.swap {s : Slice} {i j : Int} : NSim g N (s.swap i j : Prog V' Sp Unit) (s.swap i j) := by
  unfold Slice.swap
  exact NSim.rd fun x hx => NSim.rd fun y hy => NSim.bind (NSim.wr hx) fun _ => NSim.wr hy

theorem NSim.runs {p' : Prog V' Sp α} {p : Prog V Sp α} {l l' : Mem V'} {n : Nat} {a : α} (hr : TIn A p' l n a l') :
    (∀ i ∈ A, l i ∈ N) → NSim g N p' p → TIn A p (g ∘ l) n a (g ∘ l') := by
  induction hr generalizing p with
  | ret a m => intro _ h; cases h; exact .ret _ _
  | read hi _ ih =>
    intro hl h
    cases h with
    | read h => exact .read hi (ih hl (h _ (hl _ hi)))
  | @write i v k m n a m' hi _ ih =>
    intro hl h
    cases h with
    | write hx h =>
      have := ih (p := _) (fun j hj => by
        simp only [Function.update_apply]
        split_ifs
        · exact hx
        · exact hl j hj) h
      rw [Function.comp_update] at this
      exact .write hi this

end Sorty
