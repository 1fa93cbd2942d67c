import Verif.Model.Prelude

/-!
# The generator of the tests

`rand_pcg::Pcg64` with `seed_from_u64` of `rand_core` 0.6 and the sampling of `rand` 0.8, the generator that the tests of the crate use
(tests/integration_test_er_m.rs:74, tests/integration_test_er_c.rs:136, tests/integration_test_sw.rs:141).  External code, written
down from its published definition; it shows that the contract `Rng` is met by a real generator, and it makes the model comparable with the
recorded results in /repo/TestData (tools/golden.py).  Machine integers are natural numbers with explicit reduction.
-/

set_option linter.unusedSectionVars false

namespace Verif

/-- State of `Lcg128Xsl64` (crate `rand_pcg`). -/
structure Pcg64 where
  state : Nat
  increment : Nat
deriving DecidableEq, Repr

namespace Pcg64

/-- `rotate_right` on `w` bits. -/
def rotr (w x k : Nat) : Nat := if k % w = 0 then x else (x >>> (k % w)) ||| ((x <<< (w - k % w)) % 2 ^ w)

/-- `step` (crate `rand_pcg`). -/
def step (r : Pcg64) : Pcg64 :=
  { r with state := (r.state * 0x2360ED051FC65DA44385DF649FCCF645 + r.increment) % 2 ^ 128 }

/-- `next_u64` (crate `rand_pcg`): step, then the XSL RR output function. -/
def nextU64 (r : Pcg64) : Nat × Pcg64 :=
  let r := r.step
  (rotr 64 (((r.state >>> 64) ^^^ r.state) % 2 ^ 64) (r.state >>> 122) % 2 ^ 64, r)

/-- `seed_from_u64` (crate `rand_core`): the words of the seed, 32 bits each. -/
def seedWords : Nat → Nat → List Nat
  | 0, _ => []
  | k + 1, s =>
    let s := (s * 6364136223846793005 + 11634580027462260723) % 2 ^ 64
    rotr 32 ((((s >>> 18) ^^^ s) >>> 27) % 2 ^ 32) (s >>> 59) :: seedWords k s

/-- Little endian number from words of 32 bits. -/
def fromWords (l : List Nat) : Nat := l.foldr (fun w acc => w + 2 ^ 32 * acc) 0

/-- `Pcg64::seed_from_u64` (crates `rand_core`, `rand_pcg`). -/
def seedFromU64 (seed : Nat) : Pcg64 :=
  let w := seedWords 8 seed
  let state := fromWords (w.take 4)
  let increment := fromWords (w.drop 4) ||| 1
  step ⟨(state + increment) % 2 ^ 128, increment⟩

/-- The loop of `sample_single_inclusive` (crate `rand`) on words of `w` bits; the number of rejections is limited, which changes nothing
that can be observed. -/
def sampleLoop (w range zone : Nat) : Nat → Pcg64 → Nat × Pcg64
  | 0, r => (r.nextU64.1 % 2 ^ w * range / 2 ^ w, r.nextU64.2)
  | k + 1, r =>
    if r.nextU64.1 % 2 ^ w * range % 2 ^ w ≤ zone then (r.nextU64.1 % 2 ^ w * range / 2 ^ w, r.nextU64.2)
    else sampleLoop w range zone k r.nextU64.2

/-- `gen_range(0..h)` for an unsigned integer of `w` bits (crate `rand`). -/
def sample (w : Nat) (r : Pcg64) (h : Nat) : Nat × Pcg64 := sampleLoop w h ((h <<< (w - 1 - Nat.log2 h)) % 2 ^ w - 1) 1000 r

/-- `slice.swap(i, j)` inside the range. -/
def swapAt {α : Type} (a : Array α) (i j : Nat) : Array α := if h : i < a.size ∧ j < a.size then a.swap i j h.1 h.2 else a

/-- One step of `SliceRandom::shuffle` (crate `rand`), with the result of `gen_index`. -/
def shuffleWith {α : Type} (a : Array α) (i : Nat) (p : Nat × Pcg64) : Array α × Pcg64 := (swapAt a i p.1, p.2)

/-- One step of `SliceRandom::shuffle` (crate `rand`). -/
def shuffleStep {α : Type} (s : Array α × Pcg64) (i : Nat) : Array α × Pcg64 := shuffleWith s.1 i (sample 32 s.2 (i + 1))

theorem sampleLoop_lt (w : Nat) {range zone : Nat} (hr : 0 < range) : ∀ k r, (sampleLoop w range zone k r).1 < range
  | 0, r => by
    unfold sampleLoop
    exact Nat.div_lt_of_lt_mul (Nat.mul_lt_mul_of_pos_right (Nat.mod_lt _ (Nat.two_pow_pos w)) hr)
  | k + 1, r => by
    unfold sampleLoop
    split
    · exact Nat.div_lt_of_lt_mul (Nat.mul_lt_mul_of_pos_right (Nat.mod_lt _ (Nat.two_pow_pos w)) hr)
    · exact sampleLoop_lt w hr k _

theorem sample_lt (w : Nat) {h : Nat} (hh : 0 < h) (r : Pcg64) : (sample w r h).1 < h := by
  unfold sample
  generalize 1000 = k
  exact sampleLoop_lt w hh k r

theorem swapAt_perm {α : Type} (a : Array α) (i j : Nat) : (swapAt a i j).Perm a := by
  unfold swapAt
  split
  · exact Array.swap_perm _ _
  · exact .refl _

theorem shuffleStep_perm {α : Type} (s : Array α × Pcg64) (i : Nat) : (shuffleStep s i).1.Perm s.1 := by
  unfold shuffleStep
  generalize sample 32 s.2 (i + 1) = p
  exact swapAt_perm s.1 i p.1

theorem shuffle_perm {α : Type} : ∀ (l : List Nat) (s : Array α × Pcg64), (l.foldl shuffleStep s).1.Perm s.1
  | [], _ => .refl _
  | i :: l, s => (shuffle_perm l (shuffleStep s i)).trans (shuffleStep_perm s i)

theorem upper_lt (x : Nat) : (x % 2 ^ 64) >>> 11 < 2 ^ 53 := by
  rw [Nat.shiftRight_eq_div_pow]
  simp only [Nat.reducePow]
  omega

end Pcg64

/-- `Pcg64` meets the contract of the generator.  `gen::<f64>()` takes the upper 53 bits (crate `rand`). -/
instance : Rng Pcg64 where
  genRange r h := Pcg64.sample 64 r h
  genRange_lt r _ hh := Pcg64.sample_lt 64 hh r
  genUnit r := ((r.nextU64.1 % 2 ^ 64) >>> 11, r.nextU64.2)
  genUnit_lt r := Pcg64.upper_lt _
  shuffle r l :=
    let s := ((List.range' 1 (l.length - 1)).reverse).foldl Pcg64.shuffleStep (l.toArray, r)
    (s.1.toList, s.2)
  shuffle_perm r l := by
    have := Pcg64.shuffle_perm ((List.range' 1 (l.length - 1)).reverse) (l.toArray, r)
    exact Array.perm_iff_toList_perm.mp this

end Verif
