import Mathlib.Algebra.BigOperators.Fin
import Verif.Model.Conv

/-!
# What a convolution is

The textbook definitions over the integers (or any commutative ring), without the layout of the model: the image goes on with zeros
in all directions, and the transposed convolution adds up copies of the kernel.
-/

namespace SyMPC.Conv

/-- an image without borders: zero outside `h × v` -/
def unbounded {T : Type} [Zero T] (h v : Nat) (x : List Nat → T) (n c : Nat) (i j : Int) : T :=
  if 0 ≤ i ∧ i < h ∧ 0 ≤ j ∧ j < v then x [n, c, i.toNat, j.toNat] else 0

/-- Element `(n, m, i, j)` of the cross-correlation of images `x` of `h × v` pixels with kernels `w` of `kh × kw` for `ci` channels;
`g` is the group of kernel `m`. -/
def crossCorrelation {T : Type} [CommRing T] (a : Args) (h v ci kh kw g : Nat) (x w : List Nat → T) (n m : Nat) (i j : Nat) : T :=
  ∑ c : Fin ci, ∑ p : Fin kh, ∑ q : Fin kw,
    unbounded h v x n (g * ci + c) ((i : Int) * a.stride.1 + p * a.dilation.1 - a.padding.1)
      (j * a.stride.2 + q * a.dilation.2 - a.padding.2) * w [m, c, p, q]

/-- Element `(n, m, i, j)` of the transposed convolution: pixel `(y, z)` of channel `c` of group `g` adds its multiple of the kernel at
`(y * stride - padding, z * stride - padding)`; `cg` is the number of channels of a group, `l` the number of the channel within
the group that `m` belongs to. -/
def kernelCopies {T : Type} [CommRing T] (a : Args) (h v cg kh kw g l : Nat) (x w : List Nat → T) (n : Nat) (i j : Nat) : T :=
  ∑ c : Fin cg, ∑ y : Fin h, ∑ z : Fin v, ∑ p : Fin kh, ∑ q : Fin kw,
    if (i : Int) = (y : Int) * a.stride.1 - a.padding.1 + p * a.dilation.1 ∧ (j : Int) = (z : Int) * a.stride.2 - a.padding.2 + q * a.dilation.2
    then x [n, g * cg + c, y, z] * w [g * cg + c, l, p, q] else 0

/-- the elements of the two operations, in terms of the shapes -/
def textbook {T : Type} [CommRing T] (op : ConvOp) (a : Args) (xs ws : List Nat) (x w : List Nat → T) (n m i j : Nat) : T :=
  match op, xs, ws with
  | .conv2d, [_, _, h, v], [o, ci, kh, kw] => crossCorrelation a h v ci kh kw (m / (o / a.groups)) x w n m i j
  | .convTranspose2d, [_, c, h, v], [_, o, kh, kw] => kernelCopies a h v (c / a.groups) kh kw (m / o) (m % o) x w n i j
  | _, _, _ => 0

end SyMPC.Conv
