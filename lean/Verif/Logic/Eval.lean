import Verif.Logic.Run
import Verif.SemHigh

/-! # Runs of one goroutine that change nothing

`Eval P m p q`: on memory `m` the program `p` comes to `q` by loads, and comparisons answered in the negative. -/

namespace Sorty

open Prog

variable {V Sp α β : Type} {P : Par V Sp} {m : Mem V}

theorem Prog.bind_assoc {γ : Type} (p : Prog V Sp α) (f : α → Prog V Sp β) (g : β → Prog V Sp γ) :
    (p.bind f).bind g = p.bind fun x => (f x).bind g := by
  induction p with
  | ret a => rfl
  | panic | overflow | diverge => rfl
  | read i k ih | maxGor k ih | loadGor k ih | incGor k ih | decGor k ih | less i j x y k ih | recv k ih =>
    simp only [Prog.bind]
    congr 1
    funext x
    exact ih x
  | write i v k ih | mkSync k ih | go s k ih | send v k ih =>
    simp only [Prog.bind, ih]

inductive Eval (P : Par V Sp) (m : Mem V) : Prog V Sp α → Prog V Sp α → Prop
  | refl (p) : Eval P m p p
  | read {i k q} : Eval P m (k (m i)) q → Eval P m (.read i k) q
  | less {i j x y k q} : P.cmp i j x y false → Eval P m (k false) q → Eval P m (.less i j x y k) q

theorem Eval.trans {p q r : Prog V Sp α} (h : Eval P m p q) (h' : Eval P m q r) : Eval P m p r := by
  induction h with
  | refl => exact h'
  | read _ ih => exact .read (ih h')
  | less hc _ ih => exact .less hc (ih h')

theorem Eval.bind {p q : Prog V Sp α} (h : Eval P m p q) (f : α → Prog V Sp β) : Eval P m (p.bind f) (q.bind f) := by
  induction h with
  | refl => exact .refl _
  | read _ ih => exact .read ih
  | less hc _ ih => exact .less hc ih

/-- run the first part, then the second -/
theorem Eval.seq {p : Prog V Sp α} {a : α} {f : α → Prog V Sp β} {q : Prog V Sp β} (h : Eval P m p (.ret a)) (h' : Eval P m (f a) q) :
    Eval P m (p.bind f) q := (h.bind f).trans h'

theorem Eval.again {σ : Type} {n : Nat} {body : σ → Prog V Sp (Ctl σ α)} {s s' : σ} {q : Prog V Sp α}
    (h : Eval P m (body s) (.ret (.again s'))) (h' : Eval P m (loop n body s') q) : Eval P m (loop (n + 1) body s) q := h.seq h'

theorem Eval.brk {σ : Type} {n : Nat} {body : σ → Prog V Sp (Ctl σ α)} {s : σ} {a : α}
    (h : Eval P m (body s) (.ret (.brk a))) : Eval P m (loop (n + 1) body s) (.ret a) := h.seq (.refl _)

theorem HighSteps.trans {L : Nat} {c c' c'' : Cfg V Sp} (h : HighSteps P L c c') (h' : HighSteps P L c' c'') : HighSteps P L c c'' := by
  induction h' with
  | refl => exact h
  | tail _ h2 ih => exact ih.tail h2

/-- one step of a goroutine that does not read `MaxGor` -/
theorem HighSteps.one {L : Nat} (l₁ l₂ : List (Prog V Sp Unit)) {sh sh' : Sh V} {p p' : Prog V Sp Unit} {new : List (Prog V Sp Unit)}
    (h : TStep P sh p sh' p' new) (hp : ∀ k, p ≠ .maxGor k) : HighSteps P L ⟨sh, l₁ ++ p :: l₂⟩ ⟨sh', l₁ ++ p' :: l₂ ++ new⟩ :=
  .tail (.refl _) (.tau _ _ _ _ _ _ _ h fun k e => (hp k e).elim)

/-- reading `MaxGor` -/
theorem HighSteps.max (l₁ l₂ : List (Prog V Sp Unit)) {sh : Sh V} {k : Nat → Prog V Sp Unit} :
    HighSteps P P.M ⟨sh, l₁ ++ .maxGor k :: l₂⟩ ⟨sh, l₁ ++ k P.M :: l₂⟩ := by
  have := HighStep.tau (P := P) (L := P.M) l₁ l₂ sh _ sh _ [] (TStep.maxGor sh k P.M (Nat.le_refl _)) (fun k' e => ⟨P.M, Nat.le_refl _, Nat.le_refl _, by cases e; rfl⟩)
  simp only [List.append_nil] at this
  exact .tail (.refl _) this

theorem Eval.steps {L : Nat} {sh : Sh V} {p q : Prog V Sp Unit} (h : Eval P sh.mem p q) (l₁ l₂ : List (Prog V Sp Unit)) :
    HighSteps P L ⟨sh, l₁ ++ p :: l₂⟩ ⟨sh, l₁ ++ q :: l₂⟩ := by
  generalize hm : sh.mem = m at h
  induction h with
  | refl => exact .refl _
  | @read i k q _ ih =>
    subst hm
    refine HighSteps.trans (HighSteps.one l₁ l₂ (.read sh i k) nofun) ?_
    simpa using ih
  | @less i j x y k q hc _ ih =>
    refine HighSteps.trans (HighSteps.one l₁ l₂ (.less sh i j x y k false hc) nofun) ?_
    simpa using ih

theorem Eval.evalLocal {p : Prog V Sp α} {a : α} (hP : ∀ i j x y, ¬ P.cmp i j x y false) (h : Eval P m p (.ret a)) :
    p.evalLocal m = some (a, m) := by
  generalize hq : Prog.ret a = q at h
  induction h with
  | refl => subst hq; rfl
  | read _ ih => exact ih hq
  | less hc => exact (hP _ _ _ _ hc).elim

theorem Eval.rd {s : Slice} {i : Int} (h0 : 0 ≤ i) (h1 : i < s.len) {f : V → Prog V Sp β} {q : Prog V Sp β}
    (h : Eval P m (f (m (s.off + i.toNat))) q) : Eval P m ((s.rd i).bind f) q := by
  rw [Slice.rd, if_pos ⟨h0, h1⟩]
  exact .read h

theorem Eval.busy {p q : Prog V Sp Unit} (h : Eval P m p q) (hq : (!q.isRet && !q.isRecv) = true) : (!p.isRet && !p.isRecv) = true := by
  cases h with
  | refl => exact hq
  | read => rfl
  | less => rfl

end Sorty
