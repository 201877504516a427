/-!
# Model of waiting for COMAR to come back: pisi/comariface.py:41-55

`timeout` is a float: the numbers here are multiples of 2⁻⁵⁵, which all numbers that occur are, and a difference is rounded to 53
binary digits as IEEE 754 has it. What `connect` does is not modelled, only whether it succeeds at a time; every exception, also
an interrupt from the keyboard, is caught there (pisi/comariface.py:52) and counts as no success.
-/
namespace Pisi.ComarWait

/-- A natural number rounded to 53 binary digits, halves to the even one. -/
def roundNat (n : Nat) : Nat :=
  if n < 2 ^ 53 then n
  else
    let k := n.log2 - 52
    let q := n / 2 ^ k
    let r := n % 2 ^ k
    (if 2 * r < 2 ^ k then q else if 2 ^ k < 2 * r then q + 1 else if q % 2 = 0 then q else q + 1) * 2 ^ k

/-- The same for an integer. -/
def round : Int → Int
  | .ofNat n => roundNat n
  | .negSucc n => -(roundNat (n + 1))

/-- `0.2`: the nearest double, 0x1999999999999A times 2⁻⁵⁵. -/
def fifth : Int := 0x1999999999999A

/-- `timeout = 5`, pisi/comariface.py:44. -/
def five : Int := 5 * 2 ^ 55

/-- `timeout -= 0.2`, pisi/comariface.py:53. -/
def less (t : Int) : Int := round (t - fifth)

/-- The loop, pisi/comariface.py:45-55. `up at`: whether `connect` succeeds at a time, in milliseconds; `takes i`: how much longer
than the sleep of 0.2 seconds the attempt `i` and the sleep after it take. `Wait up takes i at t r n e`: at the attempt `i`, at the
time `at`, with `timeout` being `t`, it will return `r` after `n` attempts in all, at the time `e`. -/
inductive Wait (up : Nat → Bool) (takes : Nat → Nat) : Nat → Nat → Int → Bool → Nat → Nat → Prop
  | over {i at_ t} : t ≤ 0 → Wait up takes i at_ t false i at_
  | hit {i at_ t} : 0 < t → up at_ = true → Wait up takes i at_ t true (i + 1) at_
  | miss {i at_ t r n e} : 0 < t → up at_ = false → Wait up takes (i + 1) (at_ + 200 + takes i) (less t) r n e →
      Wait up takes i at_ t r n e

/-- `wait_comar()`, pisi/comariface.py:41-55, called at the time 0. -/
def WaitComar (up : Nat → Bool) (takes : Nat → Nat) (r : Bool) (n e : Nat) : Prop := Wait up takes 0 0 five r n e

end Pisi.ComarWait
