import Verif.Logic.WP
import Mathlib.Data.List.Basic

/-! # The global invariant of a call

If every goroutine satisfies its `wp`, the configurations of the call satisfy `Inv`. -/

namespace Sorty

variable {V Sp : Type}

/-- What a goroutine must have done when it ends. -/
def endQ : Unit → Gh V Sp → Mem V → Prop := fun _ g m =>
  g.ph = .done ∨ (g.role = .main ∧ g.C = false ∧ g.ph = .run ∧ ∀ mf, g.P mf → Agree g.W m mf → g.goal mf)

theorem endQ_agree (a : Unit) (g : Gh V Sp) (m m' : Mem V) (ha : Agree (g.W ∪ g.R) m m') (h : endQ a g m) :
    endQ a g m' := by
  rcases h with h | ⟨h1, h2, h3, h4⟩
  · exact .inl h
  · exact .inr ⟨h1, h2, h3, fun mf hP hA => h4 mf hP ((ha.mono Set.subset_union_left).trans hA)⟩

/-- a goroutine with its ghost state -/
abbrev Th (V Sp : Type) := Prog V Sp Unit × Gh V Sp

/-- consistency of a single ghost state -/
structure GhOK (S : Spec V Sp) (g : Gh V Sp) : Prop where
  s_run : g.S = true → g.ph = .run ∧ g.role ≠ .part
  t_run : g.T = true → g.ph = .run ∧ g.role ≠ .part ∧ 2 ≤ g.sz
  sz_run : g.C = true → g.role ≠ .part → 1 ≤ g.sz
  j : g.J ≠ none → g.role = .main ∧ g.ph = .run ∧ g.S = true ∧ g.T = false
  part_ph : g.role = .part → g.ph = .run ∨ g.ph = .done
  main_ph : g.role = .main → g.ph = .run ∨ g.ph = .wait ∨ g.ph = .done
  sorter_ph : g.role = .sorter → g.ph = .run ∨ g.ph = .last ∨ g.ph = .done
  c_false : g.C = false → g.role = .main ∧ g.ph = .run ∧ g.T = false ∧ g.S = false
  w_end : g.ph ≠ .run → g.W = ∅
  r_run : g.role ≠ .part → g.ph = .run → g.J = none → g.R = ∅
  r_J : ∀ s post, g.J = some (s, post) → g.R = S.R s ∧ ∃ m, post = S.ppost s m
  part_R : g.role = .part → g.ph = .done → g.R = ∅
  pg : g.role = .part → g.ph = .run → ∀ v m m', Agree (g.W ∪ g.R) m m' → g.pgoal v m → g.pgoal v m'

/-- no interference between two goroutines -/
def Disj (t t' : Th V Sp) : Prop :=
  Disjoint t.2.W t'.2.W ∧ Disjoint t.2.W t'.2.R ∧ Disjoint t.2.R t'.2.W ∧
    (t.2.role ≠ .part → t'.2.role ≠ .part → Disjoint t.2.R t'.2.R)

theorem Disj.symm {t t' : Th V Sp} (h : Disj t t') : Disj t' t :=
  ⟨h.1.symm, h.2.2.1.symm, h.2.1.symm, fun a b => (h.2.2.2 b a).symm⟩

def sumOf (f : Gh V Sp → Nat) (ts : List (Th V Sp)) : Nat := (ts.map fun t => f t.2).sum

@[simp] theorem sumOf_nil (f : Gh V Sp → Nat) : sumOf f [] = 0 := rfl
@[simp] theorem sumOf_cons (f : Gh V Sp → Nat) (t ts) : sumOf f (t :: ts) = f t.2 + sumOf f ts := by simp [sumOf]
@[simp] theorem sumOf_append (f : Gh V Sp → Nat) (ts ts') : sumOf f (ts ++ ts') = sumOf f ts + sumOf f ts' := by
  simp [sumOf]

theorem sumOf_le (f f' : Gh V Sp → Nat) (ts : List (Th V Sp)) (h : ∀ t ∈ ts, f t.2 ≤ f' t.2) : sumOf f ts ≤ sumOf f' ts := by
  induction ts with
  | nil => simp
  | cons t ts ih =>
    have := h t (by simp); have := ih fun t ht => h t (by simp [ht]); simp; omega

theorem sumOf_pos {f : Gh V Sp → Nat} {ts : List (Th V Sp)} (h : 0 < sumOf f ts) : ∃ t ∈ ts, 0 < f t.2 := by
  induction ts with
  | nil => simp at h
  | cons t ts ih =>
    by_cases ht : 0 < f t.2
    · exact ⟨t, by simp, ht⟩
    · simp at h; obtain ⟨t', h', h''⟩ := ih (by omega); exact ⟨t', by simp [h'], h''⟩

theorem le_sumOf {f : Gh V Sp → Nat} {ts : List (Th V Sp)} {t} (h : t ∈ ts) : f t.2 ≤ sumOf f ts := by
  induction ts with
  | nil => simp at h
  | cons t' ts ih =>
    rcases List.mem_cons.1 h with rfl | h
    · simp
    · have := ih h; simp; omega

/-- contribution to `nGor` -/
def cntG (g : Gh V Sp) : Nat := (if g.role ≠ .part ∧ g.ph = .run then 1 else 0) + if g.T = true then 1 else 0
def sG (g : Gh V Sp) : Nat := if g.S = true then 1 else 0
def lastG (g : Gh V Sp) : Nat := if g.ph = .last then 1 else 0
def waitG (g : Gh V Sp) : Nat := if g.ph = .wait then 1 else 0
def prunG (g : Gh V Sp) : Nat := if g.role = .part ∧ g.ph = .run then 1 else 0
def jG (g : Gh V Sp) : Nat := if g.J.isSome = true then 1 else 0
def mainG (g : Gh V Sp) : Nat := if g.role = .main then 1 else 0
def szG (g : Gh V Sp) : Nat := g.sz

/-- promises follow from goals of goroutines created later -/
def PromOK : List (Th V Sp) → Prop
  | [] => True
  | t :: L => (∀ mf, (∀ t' ∈ L, t'.2.role = .sorter → t'.2.goal mf) → t.2.P mf) ∧ PromOK L

theorem PromOK.upd {L₁ L₂ new : List (Th V Sp)} {p g p' g'} (h : PromOK (L₁ ++ (p, g) :: L₂))
    (hr : g'.role = g.role) (hg : g'.goal = g.goal)
    (hP : ∀ mf, (∀ t ∈ new, t.2.role = .sorter → t.2.goal mf) → g.P mf → g'.P mf) (hn : PromOK new) :
    PromOK (L₁ ++ (p', g') :: L₂ ++ new) := by
  induction L₁ with
  | nil =>
    simp only [List.nil_append, List.cons_append, PromOK] at h ⊢
    refine ⟨fun mf hmf => hP mf (fun t ht => hmf t (by simp [ht])) (h.1 mf fun t ht => hmf t (by simp [ht])), ?_⟩
    have h2 := h.2
    clear h
    induction L₂ with
    | nil => simpa using hn
    | cons t L₂ ih =>
      simp only [List.cons_append, PromOK] at h2 ⊢
      exact ⟨fun mf hmf => h2.1 mf fun t ht => hmf t (by simp [ht]), ih h2.2⟩
  | cons t L₁ ih =>
    simp only [List.cons_append, PromOK] at h ⊢
    refine ⟨fun mf hmf => h.1 mf ?_, ih h.2⟩
    intro t' ht'
    simp only [List.mem_append, List.mem_cons] at ht'
    rcases ht' with ht' | rfl | ht'
    · exact hmf t' (by simp [ht'])
    · have := hmf (p', g') (by simp)
      simpa [hr, hg] using this
    · exact hmf t' (by simp [ht'])

/-- parameters of the invariant -/
structure IPar (V Sp : Type) where
  N : Nat
  W0 : Set Nat
  G : Mem V → Prop
  big : Bool

/-- The invariant. -/
structure Inv (P : Par V Sp) (S : Spec V Sp) (I : IPar V Sp) (c : Cfg V Sp) (ts : List (Th V Sp)) : Prop where
  ths : c.ths = ts.map Prod.fst
  wps : ∀ t ∈ ts, wp S t.1 t.2 c.sh.mem endQ
  ok : ∀ t ∈ ts, GhOK S t.2
  disj : ts.Pairwise Disj
  sub : ∀ t ∈ ts, t.2.W ⊆ I.W0 ∧ t.2.R ⊆ I.W0
  roles : ∃ rs, ts.map (fun t => t.2.role) = .main :: rs ∧ Role.main ∉ rs
  cflag : ∀ t ∈ ts, t.2.C = c.sh.sync
  nosync : c.sh.sync = false → ts.length = 1
  mg : ∀ t ∈ ts, t.2.mg ≤ P.M
  cnt : c.sh.sync = true → c.sh.nGor = sumOf cntG ts
  szs : sumOf szG ts ≤ I.N
  bound : ¬ P.stale → c.sh.sync = true → sumOf cntG ts + sumOf sG ts ≤ 2 * (P.M - 1)
  big : ∀ t ∈ ts, t.2.role = .main → t.2.big = I.big
  big' : c.sh.sync = true → I.big = true ∧ 2 ≤ P.M
  jsum : sumOf prunG ts = sumOf jG ts
  jlink : ∀ t ∈ ts, ∀ t' ∈ ts, ∀ s post, t.2.J = some (s, post) → t'.2.role = .part → t'.2.ph = .run →
    t'.2.W = S.W s ∧ t'.2.R = S.R s ∧ t'.2.pgoal = post
  lastsum : c.sh.sync = true → sumOf lastG ts = if c.sh.nGor = 0 then sumOf waitG ts else 0
  mdone : c.sh.sync = true → ∀ t ∈ ts, t.2.role = .main → t.2.ph = .done → c.sh.nGor = 0
  fin : ∀ t ∈ ts, t.2.role ≠ .part → t.2.ph ≠ .run → ∀ mf, t.2.P mf → Agree t.2.R c.sh.mem mf → t.2.goal mf
  prom : PromOK ts
  goal : ∀ t ∈ ts, t.2.role = .main → t.2.goal = I.G

/-- the roles of the goroutines -/
def rolesOf (ts : List (Th V Sp)) : List Role := ts.map fun t => t.2.role

/-- what a goroutine may access, and why -/
structure Own (Sp : Type) where
  role : Role
  ph : Phase
  W : Set Nat
  R : Set Nat
  J : Option Sp

/-- the ownership part of a ghost state -/
def Gh.own (g : Gh V Sp) : Own Sp := ⟨g.role, g.ph, g.W, g.R, g.J.map Prod.fst⟩

/-- the ownership of the goroutines -/
def ownsOf (ts : List (Th V Sp)) : List (Own Sp) := ts.map fun t => t.2.own

/-- the role of a goroutine with the given descriptor -/
def childRole (S : Spec V Sp) (s : Sp) : Role := if S.isPart s = true then .part else .sorter

/-- starting ghost state of a spawned goroutine -/
def childGh (S : Spec V Sp) (s : Sp) (m : Mem V) : Gh V Sp :=
  if S.isPart s = true then
    { role := .part, ph := .run, W := S.W s, R := S.R s, P := fun _ => True, goal := fun _ => True,
      pgoal := S.ppost s m, J := none, T := false, S := false, mg := 0, C := true, big := false, sz := 0 }
  else
    { role := .sorter, ph := .run, W := S.W s, R := ∅, P := fun _ => True, goal := S.goal s m,
      pgoal := fun _ _ => True, J := none, T := false, S := false, mg := 0, C := true, big := false, sz := S.sz s }

/-- bodies of goroutines meet their contracts -/
def BodyOK (P : Par V Sp) (S : Spec V Sp) : Prop :=
  ∀ s m, S.pre s m → wp S (P.body s) (childGh S s m) m endQ

theorem wp_other {S : Spec V Sp} (hS : S.Local) {t : Th V Sp} {m m' : Mem V} (hok : GhOK S t.2) {A : Set Nat}
    (hd1 : Disjoint A t.2.W) (hd2 : Disjoint A t.2.R) (hm : ∀ i, i ∉ A → m i = m' i)
    (h : wp S t.1 t.2 m endQ) : wp S t.1 t.2 m' endQ := by
  refine wp_agree hS endQ_agree ?_ ?_ h
  · rintro i (hi | hi)
    · exact hm i fun hA => Set.disjoint_left.1 hd1 hA hi
    · exact hm i fun hA => Set.disjoint_left.1 hd2 hA hi
  · intro hr v m m' ha hph; exact hok.pg hr hph v m m' ha

theorem pairwise_mid {L₁ L₂ : List (Th V Sp)} {t : Th V Sp} :
    (L₁ ++ t :: L₂).Pairwise Disj ↔ (∀ x ∈ L₁ ++ L₂, Disj t x) ∧ (L₁ ++ L₂).Pairwise Disj := by
  rw [List.pairwise_middle (fun {x y} (h : Disj x y) => h.symm), List.pairwise_cons]

theorem mem_upd {τ : Type} {L₁ L₂ new : List τ} {x y t : τ} (h : t ∈ L₁ ++ x :: L₂ ++ new) :
    t ∈ x :: new ∨ (t ∈ L₁ ++ L₂ ∧ t ∈ L₁ ++ y :: L₂) := by
  simp at h ⊢; tauto

theorem perm_upd {τ : Type} {L₁ L₂ new : List τ} {x : τ} : (L₁ ++ x :: L₂ ++ new).Perm ((x :: new) ++ (L₁ ++ L₂)) := by
  have h : (L₁ ++ x :: L₂ ++ new).Perm (new ++ (x :: (L₁ ++ L₂))) :=
    List.perm_append_comm.trans (List.Perm.append_left _ List.perm_middle)
  exact h.trans List.perm_middle

theorem mem_mid {τ : Type} {L₁ L₂ : List τ} {y t : τ} (h : t ∈ L₁ ++ L₂) : t ∈ L₁ ++ y :: L₂ := by
  simp at h ⊢; tauto

section
variable {P : Par V Sp} {S : Spec V Sp} {I : IPar V Sp}

theorem Inv.cnt_lt {c : Cfg V Sp} {ts} (h : Inv P S I c ts) (hs : c.sh.sync = true) : sumOf cntG ts ≤ I.N := by
  refine le_trans (sumOf_le _ _ _ fun t ht => ?_) h.szs
  have hok := h.ok t ht
  have hC := (h.cflag t ht).trans hs
  unfold cntG szG
  split_ifs with h1 h2 h2
  · exact (hok.t_run h2).2.2
  · exact hok.sz_run hC h1.1
  · have := (hok.t_run h2).2.2; omega
  · omega

theorem Inv.main_le {c : Cfg V Sp} {ts} (h : Inv P S I c ts) : sumOf mainG ts = 1 := by
  obtain ⟨rs, h1, h2⟩ := h.roles
  cases ts with
  | nil => simp at h1
  | cons t ts =>
    simp only [List.map_cons, List.cons.injEq] at h1
    obtain ⟨ha, rfl⟩ := h1
    have : sumOf mainG ts = 0 := by
      by_contra hne
      obtain ⟨t', ht', hp⟩ := sumOf_pos (Nat.pos_of_ne_zero hne)
      apply h2
      refine List.mem_map.2 ⟨t', ht', ?_⟩
      unfold mainG at hp; split_ifs at hp with hh
      · exact hh
      · omega
    simp [this, mainG, ha]

/-- steps that change at most: memory inside `g.W`, and the ghosts `S`, `mg` -/
theorem Inv.upd (hS : S.Local) {c : Cfg V Sp} {L₁ L₂ p g} (h : Inv P S I c (L₁ ++ (p, g) :: L₂))
    (m' : Mem V) (p') (s' : Bool) (n' : Nat)
    (hm : ∀ i, i ∉ g.W → c.sh.mem i = m' i)
    (hwp : wp S p' { g with S := s', mg := n' } m' endQ)
    (hs : s' = true → g.ph = .run ∧ g.role ≠ .part ∧ g.C = true)
    (hJ : g.J ≠ none → s' = true) (hn : n' ≤ P.M)
    (hb : ¬ P.stale → c.sh.sync = true → s' = true → sG g = 1 ∨ c.sh.nGor < P.M) :
    Inv P S I ⟨{ c.sh with mem := m' }, L₁.map Prod.fst ++ p' :: L₂.map Prod.fst⟩
      (L₁ ++ (p', { g with S := s', mg := n' }) :: L₂) := by
  have hg : GhOK S g := h.ok (p, g) (by simp)
  have hd := pairwise_mid.1 h.disj
  have hmem : ∀ t, t ∈ L₁ ++ (p', { g with S := s', mg := n' }) :: L₂ →
      t = (p', { g with S := s', mg := n' }) ∨ (t ∈ L₁ ++ L₂ ∧ t ∈ L₁ ++ (p, g) :: L₂) := by
    intro t ht; simp at ht ⊢; tauto
  have hg0 : (p, g) ∈ L₁ ++ (p, g) :: L₂ := by simp
  refine ⟨by simp, ?_, ?_, ?_, ?_, ?_, ?_, ?_, ?_, ?_, ?_, ?_, ?_, ?_, ?_, ?_, ?_, ?_, ?_, ?_, ?_⟩
  · intro t ht
    rcases hmem t ht with rfl | ⟨h1, h2⟩
    · exact hwp
    · exact wp_other hS (h.ok t h2) (hd.1 t h1).1 (hd.1 t h1).2.1 hm (h.wps t h2)
  · intro t ht
    rcases hmem t ht with rfl | ⟨h1, h2⟩
    · exact { hg with
        s_run := fun h => ⟨(hs h).1, (hs h).2.1⟩
        j := fun hj => ⟨(hg.j hj).1, (hg.j hj).2.1, hJ hj, (hg.j hj).2.2.2⟩
        c_false := fun hc => ⟨(hg.c_false hc).1, (hg.c_false hc).2.1, (hg.c_false hc).2.2.1, by
          cases s' with
          | false => rfl
          | true => exact absurd (hs rfl).2.2 (by simp_all)⟩ }
    · exact h.ok t h2
  · exact pairwise_mid.2 ⟨hd.1, hd.2⟩
  · intro t ht
    rcases hmem t ht with rfl | ⟨h1, h2⟩
    · exact h.sub (p, g) hg0
    · exact h.sub t h2
  · simpa using h.roles
  · intro t ht
    rcases hmem t ht with rfl | ⟨h1, h2⟩
    · exact h.cflag (p, g) hg0
    · exact h.cflag t h2
  · simpa using h.nosync
  · intro t ht
    rcases hmem t ht with rfl | ⟨h1, h2⟩
    · exact hn
    · exact h.mg t h2
  · simpa [cntG] using h.cnt
  · simpa [szG] using h.szs
  · intro hst hsy
    have hcnt := h.cnt hsy
    have hbd := h.bound hst hsy
    have hle : sumOf sG (L₁ ++ (p', { g with S := s', mg := n' }) :: L₂) ≤
        sumOf cntG (L₁ ++ (p', { g with S := s', mg := n' }) :: L₂) := by
      refine sumOf_le _ _ _ fun t ht => ?_
      have : t.2.S = true → t.2.ph = .run ∧ t.2.role ≠ .part := by
        rcases hmem t ht with rfl | ⟨h1, h2⟩
        · exact fun h => ⟨(hs h).1, (hs h).2.1⟩
        · exact (h.ok t h2).s_run
      unfold sG cntG
      split_ifs <;> simp_all
    have e : sumOf cntG (L₁ ++ (p', { g with S := s', mg := n' }) :: L₂) = sumOf cntG (L₁ ++ (p, g) :: L₂) := by
      simp [cntG]
    rw [e] at hle ⊢
    cases s' with
    | false =>
      have : sumOf sG (L₁ ++ (p', { g with S := false, mg := n' }) :: L₂) ≤ sumOf sG (L₁ ++ (p, g) :: L₂) := by
        simp [sG]
      omega
    | true =>
      rcases hb hst hsy rfl with hb | hb
      · have : sumOf sG (L₁ ++ (p', { g with S := true, mg := n' }) :: L₂) = sumOf sG (L₁ ++ (p, g) :: L₂) := by
          simp; simp [sG] at hb ⊢; simp [hb]
        omega
      · omega
  · intro t ht
    rcases hmem t ht with rfl | ⟨h1, h2⟩
    · exact h.big (p, g) hg0
    · exact h.big t h2
  · exact h.big'
  · simpa [prunG, jG] using h.jsum
  · intro t ht t' ht' s post hj hr hp
    rcases hmem t ht with rfl | ⟨h1, h2⟩
    · rcases hmem t' ht' with rfl | ⟨h1', h2'⟩
      · exact h.jlink (p, g) hg0 (p, g) hg0 s post hj hr hp
      · exact h.jlink (p, g) hg0 _ h2' s post hj hr hp
    · rcases hmem t' ht' with rfl | ⟨h1', h2'⟩
      · exact h.jlink _ h2 (p, g) hg0 s post hj hr hp
      · exact h.jlink _ h2 _ h2' s post hj hr hp
  · simpa [lastG, waitG] using h.lastsum
  · intro hsy t ht
    rcases hmem t ht with rfl | ⟨h1, h2⟩
    · exact h.mdone hsy (p, g) hg0
    · exact h.mdone hsy t h2
  · intro t ht hr hp mf hP hA
    rcases hmem t ht with rfl | ⟨h1, h2⟩
    · refine h.fin (p, g) hg0 hr hp mf hP ?_
      have hw : g.W = ∅ := hg.w_end hp
      intro i hi
      rw [hm i (by simp [hw])]; exact hA i hi
    · refine h.fin t h2 hr hp mf hP ?_
      intro i hi
      rw [hm i fun hA => Set.disjoint_left.1 (hd.1 t h1).2.1 hA hi]; exact hA i hi
  · have := h.prom.upd (p' := p') (g' := { g with S := s', mg := n' }) (new := []) rfl rfl (fun _ _ h => h) trivial
    simpa using this
  · intro t ht
    rcases hmem t ht with rfl | ⟨h1, h2⟩
    · exact h.goal (p, g) hg0
    · exact h.goal t h2

/-- general single-goroutine step -/
theorem Inv.step1 (hS : S.Local) {c : Cfg V Sp} {L₁ L₂ p g} (h : Inv P S I c (L₁ ++ (p, g) :: L₂))
    (sh' : Sh V) (p' g' new)
    (hm : ∀ i, i ∉ g.W → c.sh.mem i = sh'.mem i)
    (hwp : ∀ t ∈ (p', g') :: new, wp S t.1 t.2 sh'.mem endQ)
    (hok : ∀ t ∈ (p', g') :: new, GhOK S t.2)
    (hWR : ∀ t ∈ (p', g') :: new, t.2.W ⊆ g.W ∧ t.2.R ⊆ g.W ∪ g.R ∧ (t.2.role ≠ .part → g.role ≠ .part))
    (hdis : ((p', g') :: new).Pairwise Disj)
    (hrole : g'.role = g.role) (hnrole : ∀ t ∈ new, t.2.role ≠ .main)
    (hC : ∀ t ∈ (p', g') :: new, t.2.C = sh'.sync)
    (hsync : c.sh.sync = true → sh'.sync = true)
    (hnew : sh'.sync = false → new = [])
    (hmg : ∀ t ∈ (p', g') :: new, t.2.mg ≤ P.M)
    (hcnt : sh'.sync = true → sh'.nGor = sumOf cntG (L₁ ++ (p', g') :: L₂ ++ new))
    (hszs : sumOf szG ((p', g') :: new) ≤ szG g)
    (hbound : ¬ P.stale → sh'.sync = true →
      sumOf cntG (L₁ ++ (p', g') :: L₂ ++ new) + sumOf sG (L₁ ++ (p', g') :: L₂ ++ new) ≤ 2 * (P.M - 1))
    (hbig : g'.big = g.big) (hbig' : sh'.sync = true → I.big = true ∧ 2 ≤ P.M)
    (hjsum : sumOf prunG (L₁ ++ (p', g') :: L₂ ++ new) = sumOf jG (L₁ ++ (p', g') :: L₂ ++ new))
    (hjlink : ∀ t ∈ L₁ ++ (p', g') :: L₂ ++ new, ∀ t' ∈ L₁ ++ (p', g') :: L₂ ++ new, ∀ s post, t.2.J = some (s, post) → t'.2.role = .part →
      t'.2.ph = .run → t'.2.W = S.W s ∧ t'.2.R = S.R s ∧ t'.2.pgoal = post)
    (hlast : sh'.sync = true → sumOf lastG (L₁ ++ (p', g') :: L₂ ++ new) =
      if sh'.nGor = 0 then sumOf waitG (L₁ ++ (p', g') :: L₂ ++ new) else 0)
    (hmdone : sh'.sync = true → ∀ t ∈ L₁ ++ (p', g') :: L₂, t.2.role = .main → t.2.ph = .done → sh'.nGor = 0)
    (hfin : ∀ t ∈ (p', g') :: new, t.2.role ≠ .part → t.2.ph ≠ .run → ∀ mf, t.2.P mf → Agree t.2.R sh'.mem mf → t.2.goal mf)
    (hgoal : g'.goal = g.goal)
    (hP : ∀ mf, (∀ t ∈ new, t.2.role = .sorter → t.2.goal mf) → g.P mf → g'.P mf) (hnP : PromOK new) :
    Inv P S I ⟨sh', L₁.map Prod.fst ++ p' :: L₂.map Prod.fst ++ new.map Prod.fst⟩ (L₁ ++ (p', g') :: L₂ ++ new) := by
  have hd := pairwise_mid.1 h.disj
  have hmem : ∀ t, t ∈ L₁ ++ (p', g') :: L₂ ++ new → t ∈ (p', g') :: new ∨ (t ∈ L₁ ++ L₂ ∧ t ∈ L₁ ++ (p, g) :: L₂) :=
    fun t ht => mem_upd ht
  have hg0 : (p, g) ∈ L₁ ++ (p, g) :: L₂ := by simp
  have hg : GhOK S g := h.ok (p, g) hg0
  have hLL : ∀ t ∈ L₁ ++ L₂, t ∈ L₁ ++ (p, g) :: L₂ := fun t ht => mem_mid ht
  have hcase : c.sh.sync = sh'.sync ∨ (L₁ ++ L₂ = []) := by
    rcases hc : c.sh.sync with _ | _
    · right
      have := h.nosync hc
      simp at this; simp; constructor
      · exact List.eq_nil_of_length_eq_zero (by omega)
      · exact List.eq_nil_of_length_eq_zero (by omega)
    · left; exact (hsync hc).symm
  have hcross : ∀ t ∈ (p', g') :: new, ∀ t' ∈ L₁ ++ L₂, Disj t t' := by
    intro t ht t' ht'
    obtain ⟨a1, a2, a3, a4⟩ := hd.1 t' ht'
    obtain ⟨b1, b2, b3⟩ := hWR t ht
    refine ⟨a1.mono_left b1, a2.mono_left b1, ?_, ?_⟩
    · exact (Disjoint.sup_left a1 a3).mono_left b2
    · intro hr hr'
      exact (Disjoint.sup_left a2 (a4 (b3 hr) hr')).mono_left b2
  refine ⟨by simp, ?_, ?_, ?_, ?_, ?_, ?_, ?_, ?_, hcnt, ?_, hbound, ?_, hbig', hjsum, hjlink, hlast, ?_, ?_, ?_, ?_⟩
  · intro t ht
    rcases hmem t ht with h1 | ⟨h1, h2⟩
    · exact hwp t h1
    · exact wp_other hS (h.ok t h2) (hd.1 t h1).1 (hd.1 t h1).2.1 hm (h.wps t h2)
  · intro t ht
    rcases hmem t ht with h1 | ⟨h1, h2⟩
    · exact hok t h1
    · exact h.ok t h2
  · have hperm : (L₁ ++ (p', g') :: L₂ ++ new).Perm (((p', g') :: new) ++ (L₁ ++ L₂)) := perm_upd
    rw [hperm.pairwise_iff (fun {x y} (h : Disj x y) => h.symm), List.pairwise_append]
    exact ⟨hdis, hd.2, hcross⟩
  · intro t ht
    rcases hmem t ht with h1 | ⟨h1, h2⟩
    · have := h.sub (p, g) hg0
      exact ⟨(hWR t h1).1.trans this.1, (hWR t h1).2.1.trans (Set.union_subset this.1 this.2)⟩
    · exact h.sub t h2
  · obtain ⟨rs, h1, h2⟩ := h.roles
    refine ⟨rs ++ new.map (fun t => t.2.role), ?_, ?_⟩
    · rw [← List.cons_append, ← h1]; simp [hrole]
    · simp only [List.mem_append, List.mem_map, not_or, not_exists, not_and]
      exact ⟨h2, hnrole⟩
  · intro t ht
    rcases hmem t ht with h1 | ⟨h1, h2⟩
    · exact hC t h1
    · rcases hcase with hc | hc
      · rw [← hc]; exact h.cflag t h2
      · simp [hc] at h1
  · intro hc
    have hc0 : c.sh.sync = false := by
      cases hcc : c.sh.sync with
      | false => rfl
      | true => have := hsync hcc; simp_all
    have := h.nosync hc0
    have hn := hnew hc
    subst hn; simpa using this
  · intro t ht
    rcases hmem t ht with h1 | ⟨h1, h2⟩
    · exact hmg t h1
    · exact h.mg t h2
  · have := h.szs
    simp at this hszs ⊢; omega
  · intro t ht hr
    rcases hmem t ht with h1 | ⟨h1, h2⟩
    · rcases List.mem_cons.1 h1 with rfl | h1
      · rw [hbig]; exact h.big (p, g) hg0 (by rw [← hrole]; exact hr)
      · exact absurd hr (hnrole t h1)
    · exact h.big t h2 hr
  · intro hsy t ht hr hp
    rcases List.mem_append.1 ht with ht | ht
    · exact hmdone hsy t ht hr hp
    · exact absurd hr (hnrole t ht)
  · intro t ht hr hp mf hP' hA
    rcases hmem t ht with h1 | ⟨h1, h2⟩
    · exact hfin t h1 hr hp mf hP' hA
    · refine h.fin t h2 hr hp mf hP' ?_
      intro i hi
      rw [hm i fun hA => Set.disjoint_left.1 (hd.1 t h1).2.1 hA hi]; exact hA i hi
  · exact h.prom.upd hrole hgoal hP hnP
  · intro t ht hr
    rcases hmem t ht with h1 | ⟨h1, h2⟩
    · rcases List.mem_cons.1 h1 with rfl | h1
      · rw [hgoal]; exact h.goal (p, g) hg0 (by rw [← hrole]; exact hr)
      · exact absurd hr (hnrole t h1)
    · exact h.goal t h2 hr

/-- single-goroutine step without new goroutines -/
theorem Inv.step0 (hS : S.Local) {c : Cfg V Sp} {L₁ L₂ p g} (h : Inv P S I c (L₁ ++ (p, g) :: L₂))
    (sh' : Sh V) (p' g')
    (hm : ∀ i, i ∉ g.W → c.sh.mem i = sh'.mem i)
    (hwp : wp S p' g' sh'.mem endQ)
    (hok : GhOK S g')
    (hWR : g'.W ⊆ g.W ∧ g'.R ⊆ g.W ∪ g.R)
    (hrole : g'.role = g.role)
    (hC : g'.C = sh'.sync)
    (hsync : c.sh.sync = true → sh'.sync = true)
    (hmg : g'.mg ≤ P.M)
    (hcnt : sh'.sync = true → sh'.nGor = sumOf cntG (L₁ ++ (p', g') :: L₂))
    (hszs : g'.sz ≤ g.sz)
    (hbound : ¬ P.stale → sh'.sync = true →
      sumOf cntG (L₁ ++ (p', g') :: L₂) + sumOf sG (L₁ ++ (p', g') :: L₂) ≤ 2 * (P.M - 1))
    (hbig : g'.big = g.big) (hbig' : sh'.sync = true → I.big = true ∧ 2 ≤ P.M)
    (hJ : g'.J = g.J) (hpg : g'.pgoal = g.pgoal)
    (hpart : g.role = .part → g'.ph = g.ph ∧ g'.W = g.W ∧ g'.R = g.R)
    (hlast : sh'.sync = true → sumOf lastG (L₁ ++ (p', g') :: L₂) =
      if sh'.nGor = 0 then sumOf waitG (L₁ ++ (p', g') :: L₂) else 0)
    (hmdone : sh'.sync = true → ∀ t ∈ L₁ ++ (p', g') :: L₂, t.2.role = .main → t.2.ph = .done → sh'.nGor = 0)
    (hfin : g'.role ≠ .part → g'.ph ≠ .run → ∀ mf, g'.P mf → Agree g'.R sh'.mem mf → g'.goal mf)
    (hgoal : g'.goal = g.goal)
    (hP : ∀ mf, g.P mf → g'.P mf) :
    Inv P S I ⟨sh', L₁.map Prod.fst ++ p' :: L₂.map Prod.fst⟩ (L₁ ++ (p', g') :: L₂) := by
  have hg0 : (p, g) ∈ L₁ ++ (p, g) :: L₂ := by simp
  have := h.step1 hS sh' p' g' [] hm (by simpa using hwp) (by simpa using hok)
    (by simpa using ⟨hWR.1, hWR.2, by rw [hrole]; exact id⟩) (by simp) hrole (by simp) (by simpa using hC) hsync (by simp)
    (by simpa using hmg) (by simpa using hcnt) (by simpa [szG] using hszs) (by simpa using hbound) hbig hbig' ?_ ?_
    (by simpa using hlast) hmdone (by simpa using hfin) hgoal (fun mf _ => hP mf) trivial
  · simpa only [List.append_nil, List.map_nil] using this
  · have hj := h.jsum
    have e1 : prunG g' = prunG g := by
      by_cases hr : g.role = .part
      · simp [prunG, hrole, hr, (hpart hr).1]
      · simp [prunG, hrole, hr]
    have e2 : jG g' = jG g := by simp [jG, hJ]
    simp [e1, e2] at hj ⊢; exact hj
  · intro t ht t' ht' s post hj hr hp
    have key : ∀ t : Th V Sp, t ∈ L₁ ++ (p', g') :: L₂ ++ [] →
        ∃ u ∈ L₁ ++ (p, g) :: L₂, u.2.J = t.2.J ∧ u.2.role = t.2.role ∧ (t.2.role = .part → u.2.ph = t.2.ph ∧ u.2.W = t.2.W ∧
          u.2.R = t.2.R ∧ u.2.pgoal = t.2.pgoal) := by
      intro t ht
      rcases mem_upd (y := (p, g)) ht with ht | ⟨_, ht⟩
      · simp only [List.mem_singleton] at ht; subst ht
        exact ⟨_, hg0, hJ.symm, hrole.symm, fun hr => by
          have := hpart (hrole.symm.trans hr); exact ⟨this.1.symm, this.2.1.symm, this.2.2.symm, hpg.symm⟩⟩
      · exact ⟨t, ht, by simp⟩
    obtain ⟨u, hu, e1, _⟩ := key t ht
    obtain ⟨u', hu', e1', e2', e3'⟩ := key t' ht'
    obtain ⟨e3, e4, e5, e6⟩ := e3' hr
    rw [← e4, ← e5, ← e6]
    exact h.jlink u hu u' hu' s post (e1.trans hj) (e2'.trans hr) (e3.trans hp)

end

end Sorty
