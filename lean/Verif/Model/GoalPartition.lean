import Verif.Model.Text
/-
Model of goal_partition.rs.
-/
namespace Acorn

/-- `GOAL_BUCKET_COUNT` (goal_partition.rs:6). -/
def goalBucketCount : Nat := 100

/-- `u64::from_be_bytes`. -/
def fromBeBytes (bs : List Nat) : Nat := bs.foldl (fun n b => n * 256 + b) 0

/-- `goal_bucket` (goal_partition.rs:14-24).  SHA-256 (crate `sha2`) is a parameter. -/
def goalBucket (sha256 : List Char → List Nat) (module goal : List Char) : Nat :=
  fromBeBytes ((sha256 (module ++ ['\t'] ++ goal)).take 8) % goalBucketCount

/-- `GoalBucketRange` (goal_partition.rs:26-30). -/
structure BucketRange where
  start : Nat
  stop : Nat
  deriving DecidableEq, Repr

/-- `GoalBucketRange::contains` (goal_partition.rs:33-35). -/
def BucketRange.contains (r : BucketRange) (bucket : Nat) : Bool := r.start ≤ bucket && bucket ≤ r.stop

/-- `GoalBucketFilter` (goal_partition.rs:38-41). -/
abbrev BucketFilter := List BucketRange

/-- `GoalBucketFilter::contains` (goal_partition.rs:44-46). -/
def BucketFilter.contains (f : BucketFilter) (bucket : Nat) : Bool := f.any fun r => r.contains bucket

/-- `GoalBucketFilter::single` (goal_partition.rs:48-56); `none` is a failed assertion. -/
def BucketFilter.single (bucket : Nat) : Option BucketFilter :=
  if bucket < goalBucketCount then some [⟨bucket, bucket⟩] else none

/-- The character of a digit. -/
def digitChar (n : Nat) : Char := Char.ofNat (48 + n)

/-- `Display` of `u8`. -/
def showU8 (n : Nat) : List Char :=
  if n < 10 then [digitChar n]
  else if n < 100 then [digitChar (n / 10), digitChar (n % 10)]
  else [digitChar (n / 100), digitChar (n / 10 % 10), digitChar (n % 10)]

/-- One range in `Display for GoalBucketFilter` (goal_partition.rs:65-69). -/
def BucketRange.show (r : BucketRange) : List Char :=
  if r.start = r.stop then showU8 r.start else showU8 r.start ++ '-' :: showU8 r.stop

/-- `Display for GoalBucketFilter` (goal_partition.rs:59-73). -/
def BucketFilter.show : BucketFilter → List Char
  | [] => []
  | [r] => r.show
  | r :: rs => r.show ++ ',' :: BucketFilter.show rs

/-- The digits of `u8::from_str`, with overflow as an error. -/
def parseDigits (acc : Nat) : List Char → Option Nat
  | [] => some acc
  | c :: cs =>
    if 48 ≤ c.toNat && c.toNat ≤ 57 then
      let n := acc * 10 + (c.toNat - 48)
      if n ≤ 255 then parseDigits n cs else none
    else none

/-- `str::parse::<u8>`: an optional plus sign, then at least one digit. -/
def parseU8 (s : List Char) : Option Nat :=
  let ds := if s.head? = some '+' then s.tail else s
  if ds.isEmpty then none else parseDigits 0 ds

/-- `parse_bucket` (goal_partition.rs:109-122). -/
def parseBucket (raw : List Char) : Option Nat :=
  (parseU8 (Text.trim raw)).bind fun b => if b ≥ goalBucketCount then none else some b

/-- One round of the loop in `from_str` (goal_partition.rs:85-103). -/
def parseRange (part : List Char) : Option BucketRange :=
  let part := Text.trim part
  if part.isEmpty then none
  else
    let ends : Option (Nat × Nat) := match Text.splitOnce '-' part with
      | some (a, b) => (parseBucket a).bind fun s => (parseBucket b).bind fun e => some (s, e)
      | none => (parseBucket part).bind fun b => some (b, b)
    ends.bind fun (s, e) => if s > e then none else some ⟨s, e⟩

/-- The loop in `from_str`. -/
def parseRanges : List (List Char) → Option BucketFilter
  | [] => some []
  | p :: ps => (parseRange p).bind fun r => (parseRanges ps).bind fun rs => some (r :: rs)

/-- `FromStr for GoalBucketFilter` (goal_partition.rs:75-107); `none` is an error. -/
def BucketFilter.parse (raw : List Char) : Option BucketFilter :=
  let raw := Text.trim raw
  if raw.isEmpty then none else parseRanges (Text.splitChar ',' raw)

end Acorn
