import Verif.Model.GoalPartition
/-
What a bucket filter means.
-/
namespace Acorn.Spec

/-- Filters that can be built by `single` or by parsing: at least one range, each range in order and below
100. -/
def FilterValid (f : BucketFilter) : Prop := f ≠ [] ∧ ∀ r ∈ f, r.start ≤ r.stop ∧ r.stop < 100

/-- The bucket lies in one of the ranges. -/
def InFilter (f : BucketFilter) (b : Nat) : Prop := ∃ r ∈ f, r.start ≤ b ∧ b ≤ r.stop

/-- The filters split the 100 buckets: every bucket lies in exactly one of them. -/
def Splits (fs : List BucketFilter) : Prop := ∀ b < 100, ∃ i : Nat, (∃ f, fs[i]? = some f ∧ InFilter f b) ∧
  ∀ (j : Nat) f, fs[j]? = some f → InFilter f b → j = i

/-- Text for a bucket number: digits, after an optional plus sign, surrounded by white space. -/
def BucketText (s : List Char) (n : Nat) : Prop :=
  ∃ pre plus digits post, s = pre ++ plus ++ digits ++ post ∧ (∀ c ∈ pre, Text.isWhitespace c = true) ∧
    (∀ c ∈ post, Text.isWhitespace c = true) ∧ (plus = [] ∨ plus = ['+']) ∧ digits ≠ [] ∧
    (∀ c ∈ digits, 48 ≤ c.toNat ∧ c.toNat ≤ 57) ∧ digits.foldl (fun a c => a * 10 + (c.toNat - 48)) 0 = n ∧ n < 100

/-- Text for a range: a bucket, or two buckets in order with a hyphen between them. -/
def RangeText (s : List Char) (r : BucketRange) : Prop :=
  (r.start = r.stop ∧ BucketText s r.start) ∨
  (r.start ≤ r.stop ∧ ∃ a b, s = a ++ '-' :: b ∧ BucketText a r.start ∧ BucketText b r.stop)

/-- Text for a filter: one or more ranges separated by commas. -/
inductive FilterText : List Char → BucketFilter → Prop where
  | one {s : List Char} {r : BucketRange} : RangeText s r → FilterText s [r]
  | more {s t : List Char} {r : BucketRange} {f : BucketFilter} : RangeText s r → FilterText t f →
      FilterText (s ++ ',' :: t) (r :: f)

end Acorn.Spec
