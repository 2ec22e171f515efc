import Verif.Proofs.Outcome

/-! # Concrete inputs used to show that hypotheses of the property theorems can be met -/

namespace Sorty

/-- Default build on a 64-bit platform, bit-formula means, 64 nested calls. -/
def demoC : Conf := Conf.default Sixb.bits 64

theorem demoC_ok : demoC.OK where
  sixb := Sixb.bits_ok
  init := ⟨3, by decide⟩
  word := .inr rfl

/-- 3000 elements from address 10 on: long enough for concurrent sorting -/
def demoS : Slice := ⟨10, 3000⟩

theorem demo_depth : DepthFor demoC.depth demoS.len := by
  show Nat.log2 3000 + 2 ≤ 64
  decide

theorem demo_depth' (o : Int) : DepthFor { demoC with nanOption := o }.depth demoS.len := by
  show Nat.log2 3000 + 2 ≤ 64
  decide

theorem demo_view_all {p : Cell → Prop} {m : Mem Cell} {s : Slice} (h : ∀ a, p (m a)) : ∀ c ∈ s.view m, p c :=
  view_all.2 fun a _ => h a

/-- descending 64-bit integers -/
def demoInts : Mem Cell := fun a => .w64 (BitVec.ofNat 64 (5000 - a))

theorem demoInts_typed : SliceOf demoC.wordSize .int64 demoS demoInts :=
  ⟨demo_view_all fun a => ⟨_, rfl⟩, by decide⟩

/-- strings of `a % 7` letters -/
def demoStrs : Mem Cell := fun a => .str (1000 * a) (List.replicate (a % 7) 97)

theorem demoStrs_typed : SliceOf demoC.wordSize .string demoS demoStrs :=
  ⟨demo_view_all fun a => ⟨_, _, rfl⟩, by decide⟩

/-- floats: every third element is a NaN, the others descend -/
def demoFloats : Mem Cell := fun a => .w64 (if a % 3 = 0 then 0x7FF8000000000001#64 else BitVec.ofNat 64 (5000 - a))

theorem demoFloats_typed (o : Int) : SliceOf { demoC with nanOption := o }.wordSize .float64 demoS demoFloats :=
  ⟨demo_view_all fun a => ⟨_, rfl⟩, by decide⟩

/-- floats without NaNs -/
def demoNums : Mem Cell := fun a => .w64 (BitVec.ofNat 64 (5000 - a % 1000))

theorem demoNums_typed (o : Int) : SliceOf { demoC with nanOption := o }.wordSize .float64 demoS demoNums :=
  ⟨demo_view_all fun a => ⟨_, rfl⟩, by decide⟩

end Sorty
