import Verif.Props.Activations
import Mathlib.Analysis.Complex.ExponentialBounds
import Mathlib.Tactic.IntervalCases

/-!
# C53: how close the Maclaurin polynomial of `sigmoid` is to the logistic function
-/

namespace SyMPC

/-- what is checked for the piece from `k / 4` to `(k + 1) / 4`: `a` is below the logistic function at its left end, `b` above at its right
end, and the polynomial is at most `1 / 10` above `a` and below `b` -/
private def Piece (k : Nat) (a b : ℝ) : Prop :=
  a * (1 + (1284 / 1000) ^ k) ≤ (1284 / 1000) ^ k ∧ (12841 / 10000) ^ (k + 1) ≤ b * (1 + (12841 / 10000) ^ (k + 1)) ∧
    ∀ s : ℝ, 0 ≤ s → s ≤ 1 → 0 ≤ a + 1 / 10 - maclaurinValue ((k + s) / 4) ∧ 0 ≤ maclaurinValue ((k + s) / 4) - b + 1 / 10

private theorem piece0 : Piece 0 (1 / 2) (563 / 1000) := by
  refine ⟨by norm_num, by norm_num, fun s h0 h1 => ?_⟩
  have h : 0 ≤ 1 - s := by linarith
  constructor
  · have e : 1 / 2 + 1 / 10 - maclaurinValue ((((0 : Nat) : ℝ) + s) / 4) = 1 / 10 * s ^ 0 * (1 - s) ^ 5 + 1808795221 / 4000000000 * s ^ 1 * (1 - s) ^ 4 + 808795221 / 1000000000 * s ^ 2 * (1 - s) ^ 3 + 4564892788907 / 6400000000000 * s ^ 3 * (1 - s) ^ 2 + 988603374507 / 3200000000000 * s ^ 4 * (1 - s) ^ 1 + 535249212760397 / 10240000000000000 * s ^ 5 * (1 - s) ^ 0 := by
      unfold maclaurinValue
      push_cast
      ring
    rw [e]
    positivity
  · have e : maclaurinValue ((((0 : Nat) : ℝ) + s) / 4) - 563 / 1000 + 1 / 10 = 37 / 1000 * s ^ 0 * (1 - s) ^ 5 + 931204779 / 4000000000 * s ^ 1 * (1 - s) ^ 4 + 561204779 / 1000000000 * s ^ 2 * (1 - s) ^ 3 + 4203107211093 / 6400000000000 * s ^ 3 * (1 - s) ^ 2 + 1203396625493 / 3200000000000 * s ^ 4 * (1 - s) ^ 1 + 867630787239603 / 10240000000000000 * s ^ 5 * (1 - s) ^ 0 := by
      unfold maclaurinValue
      push_cast
      ring
    rw [e]
    positivity

private theorem piece1 : Piece 1 (281 / 500) (623 / 1000) := by
  refine ⟨by norm_num, by norm_num, fun s h0 h1 => ?_⟩
  have h : 0 ≤ 1 - s := by linarith
  constructor
  · have e : 281 / 500 + 1 / 10 - maclaurinValue ((((1 : Nat) : ℝ) + s) / 4) = 1170129212760397 / 10240000000000000 * s ^ 0 * (1 - s) ^ 5 + 536336132918157 / 1024000000000000 * s ^ 1 * (1 - s) ^ 4 + 243858764632197 / 256000000000000 * s ^ 2 * (1 - s) ^ 3 + 109811319614517 / 128000000000000 * s ^ 3 * (1 - s) ^ 2 + 48869456649117 / 128000000000000 * s ^ 4 * (1 - s) ^ 1 + 21430281591997 / 320000000000000 * s ^ 5 * (1 - s) ^ 0 := by
      unfold maclaurinValue
      push_cast
      ring
    rw [e]
    positivity
  · have e : maclaurinValue ((((1 : Nat) : ℝ) + s) / 4) - 623 / 1000 + 1 / 10 = 253230787239603 / 10240000000000000 * s ^ 0 * (1 - s) ^ 5 + 175343867081843 / 1024000000000000 * s ^ 1 * (1 - s) ^ 4 + 111981235367803 / 256000000000000 * s ^ 2 * (1 - s) ^ 3 + 68108680385483 / 128000000000000 * s ^ 3 * (1 - s) ^ 2 + 40090543350883 / 128000000000000 * s ^ 4 * (1 - s) ^ 1 + 23049718408003 / 320000000000000 * s ^ 5 * (1 - s) ^ 0 := by
      unfold maclaurinValue
      push_cast
      ring
    rw [e]
    positivity

private theorem piece2 : Piece 2 (311 / 500) (17 / 25) := by
  refine ⟨by norm_num, by norm_num, fun s h0 h1 => ?_⟩
  have h : 0 ≤ 1 - s := by linarith
  constructor
  · have e : 311 / 500 + 1 / 10 - maclaurinValue ((((2 : Nat) : ℝ) + s) / 4) = 40630281591997 / 320000000000000 * s ^ 0 * (1 - s) ^ 5 + 75251669718871 / 128000000000000 * s ^ 1 * (1 - s) ^ 4 + 138540171893533 / 128000000000000 * s ^ 2 * (1 - s) ^ 3 + 253281173472199 / 256000000000000 * s ^ 3 * (1 - s) ^ 2 + 459253767173917 / 1024000000000000 * s ^ 4 * (1 - s) ^ 1 + 824539497077271 / 10240000000000000 * s ^ 5 * (1 - s) ^ 0 := by
      unfold maclaurinValue
      push_cast
      ring
    rw [e]
    positivity
  · have e : maclaurinValue ((((2 : Nat) : ℝ) + s) / 4) - 17 / 25 + 1 / 10 = 4809718408003 / 320000000000000 * s ^ 0 * (1 - s) ^ 5 + 15628330281129 / 128000000000000 * s ^ 1 * (1 - s) ^ 4 + 43219828106467 / 128000000000000 * s ^ 2 * (1 - s) ^ 3 + 110238826527801 / 256000000000000 * s ^ 3 * (1 - s) ^ 2 + 267786232826083 / 1024000000000000 * s ^ 4 * (1 - s) ^ 1 + 629540502922729 / 10240000000000000 * s ^ 5 * (1 - s) ^ 0 := by
      unfold maclaurinValue
      push_cast
      ring
    rw [e]
    positivity

private theorem piece3 : Piece 3 (679 / 1000) (183 / 250) := by
  refine ⟨by norm_num, by norm_num, fun s h0 h1 => ?_⟩
  have h : 0 ≤ 1 - s := by linarith
  constructor
  · have e : 679 / 1000 + 1 / 10 - maclaurinValue ((((3 : Nat) : ℝ) + s) / 4) = 1408219497077271 / 10240000000000000 * s ^ 0 * (1 - s) ^ 5 + 328562864951677 / 512000000000000 * s ^ 1 * (1 - s) ^ 4 + 76308284050409 / 64000000000000 * s ^ 2 * (1 - s) ^ 3 + 17630193009823 / 16000000000000 * s ^ 3 * (1 - s) ^ 2 + 4048903209971 / 8000000000000 * s ^ 4 * (1 - s) ^ 1 + 923398249897 / 10000000000000 * s ^ 5 * (1 - s) ^ 0 := by
      unfold maclaurinValue
      push_cast
      ring
    rw [e]
    positivity
  · have e : maclaurinValue ((((3 : Nat) : ℝ) + s) / 4) - 183 / 250 + 1 / 10 = 97060502922729 / 10240000000000000 * s ^ 0 * (1 - s) ^ 5 + 47757135048323 / 512000000000000 * s ^ 1 * (1 - s) ^ 4 + 17771715949591 / 64000000000000 * s ^ 2 * (1 - s) ^ 3 + 5889806990177 / 16000000000000 * s ^ 3 * (1 - s) ^ 2 + 1831096790029 / 8000000000000 * s ^ 4 * (1 - s) ^ 1 + 546601750103 / 10000000000000 * s ^ 5 * (1 - s) ^ 0 := by
      unfold maclaurinValue
      push_cast
      ring
    rw [e]
    positivity

private theorem piece4 : Piece 4 (731 / 1000) (389 / 500) := by
  refine ⟨by norm_num, by norm_num, fun s h0 h1 => ?_⟩
  have h : 0 ≤ 1 - s := by linarith
  constructor
  · have e : 731 / 1000 + 1 / 10 - maclaurinValue ((((4 : Nat) : ℝ) + s) / 4) = 1443398249897 / 10000000000000 * s ^ 0 * (1 - s) ^ 5 + 1083656557841 / 1600000000000 * s ^ 1 * (1 - s) ^ 4 + 4053045928739 / 3200000000000 * s ^ 2 * (1 - s) ^ 3 + 3019473432727 / 2560000000000 * s ^ 3 * (1 - s) ^ 2 + 447835757869 / 819200000000 * s ^ 4 * (1 - s) ^ 1 + 330380042061 / 3276800000000 * s ^ 5 * (1 - s) ^ 0 := by
      unfold maclaurinValue
      push_cast
      ring
    rw [e]
    positivity
  · have e : maclaurinValue ((((4 : Nat) : ℝ) + s) / 4) - 389 / 500 + 1 / 10 = 86601750103 / 10000000000000 * s ^ 0 * (1 - s) ^ 5 + 140343442159 / 1600000000000 * s ^ 1 * (1 - s) ^ 4 + 842954071261 / 3200000000000 * s ^ 2 * (1 - s) ^ 3 + 897326567273 / 2560000000000 * s ^ 3 * (1 - s) ^ 2 + 178852242131 / 819200000000 * s ^ 4 * (1 - s) ^ 1 + 170970357939 / 3276800000000 * s ^ 5 * (1 - s) ^ 0 := by
      unfold maclaurinValue
      push_cast
      ring
    rw [e]
    positivity

private theorem piece5 : Piece 5 (777 / 1000) (409 / 500) := by
  refine ⟨by norm_num, by norm_num, fun s h0 h1 => ?_⟩
  have h : 0 ≤ 1 - s := by linarith
  constructor
  · have e : 777 / 1000 + 1 / 10 - maclaurinValue ((((5 : Nat) : ℝ) + s) / 4) = 481112842061 / 3276800000000 * s ^ 0 * (1 - s) ^ 5 + 1133060694567 / 1638400000000 * s ^ 1 * (1 - s) ^ 4 + 13302223201633 / 10240000000000 * s ^ 2 * (1 - s) ^ 3 + 31130746420083 / 25600000000000 * s ^ 3 * (1 - s) ^ 2 + 14517615552173 / 25600000000000 * s ^ 4 * (1 - s) ^ 1 + 33713085130471 / 320000000000000 * s ^ 5 * (1 - s) ^ 0 := by
      unfold maclaurinValue
      push_cast
      ring
    rw [e]
    positivity
  · have e : maclaurinValue ((((5 : Nat) : ℝ) + s) / 4) - 409 / 500 + 1 / 10 = 39898357939 / 3276800000000 * s ^ 0 * (1 - s) ^ 5 + 169467305433 / 1638400000000 * s ^ 1 * (1 - s) ^ 4 + 2979376798367 / 10240000000000 * s ^ 2 * (1 - s) ^ 3 + 9573253579917 / 25600000000000 * s ^ 3 * (1 - s) ^ 2 + 5834384447827 / 25600000000000 * s ^ 4 * (1 - s) ^ 1 + 17166914869529 / 320000000000000 * s ^ 5 * (1 - s) ^ 0 := by
      unfold maclaurinValue
      push_cast
      ring
    rw [e]
    positivity

private theorem piece6 : Piece 6 (817 / 1000) (853 / 1000) := by
  refine ⟨by norm_num, by norm_num, fun s h0 h1 => ?_⟩
  have h : 0 ≤ 1 - s := by linarith
  constructor
  · have e : 817 / 1000 + 1 / 10 - maclaurinValue ((((6 : Nat) : ℝ) + s) / 4) = 46513085130471 / 320000000000000 * s ^ 0 * (1 - s) ^ 5 + 87864262761019 / 128000000000000 * s ^ 1 * (1 - s) ^ 4 + 165558472101031 / 128000000000000 * s ^ 2 * (1 - s) ^ 3 + 311098920992779 / 256000000000000 * s ^ 3 * (1 - s) ^ 2 + 582833821710151 / 1024000000000000 * s ^ 4 * (1 - s) ^ 1 + 1088336428075579 / 10240000000000000 * s ^ 5 * (1 - s) ^ 0 := by
      unfold maclaurinValue
      push_cast
      ring
    rw [e]
    positivity
  · have e : maclaurinValue ((((6 : Nat) : ℝ) + s) / 4) - 853 / 1000 + 1 / 10 = 5966914869529 / 320000000000000 * s ^ 0 * (1 - s) ^ 5 + 17095737238981 / 128000000000000 * s ^ 1 * (1 - s) ^ 4 + 44361527898969 / 128000000000000 * s ^ 2 * (1 - s) ^ 3 + 108741079007221 / 256000000000000 * s ^ 3 * (1 - s) ^ 2 + 256846178289849 / 1024000000000000 * s ^ 4 * (1 - s) ^ 1 + 591023571924421 / 10240000000000000 * s ^ 5 * (1 - s) ^ 0 := by
      unfold maclaurinValue
      push_cast
      ring
    rw [e]
    positivity

private theorem piece7 : Piece 7 (851 / 1000) (881 / 1000) := by
  refine ⟨by norm_num, by norm_num, fun s h0 h1 => ?_⟩
  have h : 0 ≤ 1 - s := by linarith
  constructor
  · have e : 851 / 1000 + 1 / 10 - maclaurinValue ((((7 : Nat) : ℝ) + s) / 4) = 1436496428075579 / 10240000000000000 * s ^ 0 * (1 - s) ^ 5 + 169895651591357 / 256000000000000 * s ^ 1 * (1 - s) ^ 4 + 40100963206007 / 32000000000000 * s ^ 2 * (1 - s) ^ 3 + 4721664181951 / 4000000000000 * s ^ 3 * (1 - s) ^ 2 + 277285318549 / 500000000000 * s ^ 4 * (1 - s) ^ 1 + 32480504997 / 312500000000 * s ^ 5 * (1 - s) ^ 0 := by
      unfold maclaurinValue
      push_cast
      ring
    rw [e]
    positivity
  · have e : maclaurinValue ((((7 : Nat) : ℝ) + s) / 4) - 881 / 1000 + 1 / 10 = 304303571924421 / 10240000000000000 * s ^ 0 * (1 - s) ^ 5 + 47704348408643 / 256000000000000 * s ^ 1 * (1 - s) ^ 4 + 14299036793993 / 32000000000000 * s ^ 2 * (1 - s) ^ 3 + 2078335818049 / 4000000000000 * s ^ 3 * (1 - s) ^ 2 + 147714681451 / 500000000000 * s ^ 4 * (1 - s) ^ 1 + 20644495003 / 312500000000 * s ^ 5 * (1 - s) ^ 0 := by
      unfold maclaurinValue
      push_cast
      ring
    rw [e]
    positivity

private theorem piece8 : Piece 8 (22 / 25) (181 / 200) := by
  refine ⟨by norm_num, by norm_num, fun s h0 h1 => ?_⟩
  have h : 0 ≤ 1 - s := by linarith
  constructor
  · have e : 22 / 25 + 1 / 10 - maclaurinValue ((((8 : Nat) : ℝ) + s) / 4) = 41543004997 / 312500000000 * s ^ 0 * (1 - s) ^ 5 + 314902761403 / 500000000000 * s ^ 1 * (1 - s) ^ 4 + 4765422353279 / 4000000000000 * s ^ 2 * (1 - s) ^ 3 + 35988965171801 / 32000000000000 * s ^ 3 * (1 - s) ^ 2 + 135622637114077 / 256000000000000 * s ^ 4 * (1 - s) ^ 1 + 1019990067498453 / 10240000000000000 * s ^ 5 * (1 - s) ^ 0 := by
      unfold maclaurinValue
      push_cast
      ring
    rw [e]
    positivity
  · have e : maclaurinValue ((((8 : Nat) : ℝ) + s) / 4) - 181 / 200 + 1 / 10 = 13144495003 / 312500000000 * s ^ 0 * (1 - s) ^ 5 + 122597238597 / 500000000000 * s ^ 1 * (1 - s) ^ 4 + 2234577646721 / 4000000000000 * s ^ 2 * (1 - s) ^ 3 + 20011034828199 / 32000000000000 * s ^ 3 * (1 - s) ^ 2 + 88377362885923 / 256000000000000 * s ^ 4 * (1 - s) ^ 1 + 772009932501547 / 10240000000000000 * s ^ 5 * (1 - s) ^ 0 := by
      unfold maclaurinValue
      push_cast
      ring
    rw [e]
    positivity

private theorem piece9 : Piece 9 (113 / 125) (37 / 40) := by
  refine ⟨by norm_num, by norm_num, fun s h0 h1 => ?_⟩
  have h : 0 ≤ 1 - s := by linarith
  constructor
  · have e : 113 / 125 + 1 / 10 - maclaurinValue ((((9 : Nat) : ℝ) + s) / 4) = 1265750067498453 / 10240000000000000 * s ^ 0 * (1 - s) ^ 5 + 120075903808429 / 204800000000000 * s ^ 1 * (1 - s) ^ 4 + 56872138392049 / 51200000000000 * s ^ 2 * (1 - s) ^ 3 + 5379202837913 / 5120000000000 * s ^ 3 * (1 - s) ^ 2 + 507993980953 / 1024000000000 * s ^ 4 * (1 - s) ^ 1 + 1915832537 / 20480000000 * s ^ 5 * (1 - s) ^ 0 := by
      unfold maclaurinValue
      push_cast
      ring
    rw [e]
    positivity
  · have e : maclaurinValue ((((9 : Nat) : ℝ) + s) / 4) - 37 / 40 + 1 / 10 = 567209932501547 / 10240000000000000 * s ^ 0 * (1 - s) ^ 5 + 63220096191571 / 204800000000000 * s ^ 1 * (1 - s) ^ 4 + 34775861607951 / 51200000000000 * s ^ 2 * (1 - s) ^ 3 + 3785597162087 / 5120000000000 * s ^ 3 * (1 - s) ^ 2 + 408486019047 / 1024000000000 * s ^ 4 * (1 - s) ^ 1 + 1750087463 / 20480000000 * s ^ 5 * (1 - s) ^ 0 := by
      unfold maclaurinValue
      push_cast
      ring
    rw [e]
    positivity

private theorem piece10 : Piece 10 (231 / 250) (47 / 50) := by
  refine ⟨by norm_num, by norm_num, fun s h0 h1 => ?_⟩
  have h : 0 ≤ 1 - s := by linarith
  constructor
  · have e : 231 / 250 + 1 / 10 - maclaurinValue ((((10 : Nat) : ℝ) + s) / 4) = 2325432537 / 20480000000 * s ^ 0 * (1 - s) ^ 5 + 552322287547 / 1024000000000 * s ^ 1 * (1 - s) ^ 4 + 5241768969793 / 5120000000000 * s ^ 2 * (1 - s) ^ 3 + 49693762139131 / 51200000000000 * s ^ 3 * (1 - s) ^ 2 + 18824720646937 / 40960000000000 * s ^ 4 * (1 - s) ^ 1 + 890458645833247 / 10240000000000000 * s ^ 5 * (1 - s) ^ 0 := by
      unfold maclaurinValue
      push_cast
      ring
    rw [e]
    positivity
  · have e : maclaurinValue ((((10 : Nat) : ℝ) + s) / 4) - 47 / 50 + 1 / 10 = 1442887463 / 20480000000 * s ^ 0 * (1 - s) ^ 5 + 389757712453 / 1024000000000 * s ^ 1 * (1 - s) ^ 4 + 4179031030207 / 5120000000000 * s ^ 2 * (1 - s) ^ 3 + 44514237860869 / 51200000000000 * s ^ 3 * (1 - s) ^ 2 + 18858479353063 / 40960000000000 * s ^ 4 * (1 - s) ^ 1 + 993701354166753 / 10240000000000000 * s ^ 5 * (1 - s) ^ 0 := by
      unfold maclaurinValue
      push_cast
      ring
    rw [e]
    positivity

private theorem piece11 : Piece 11 (939 / 1000) (953 / 1000) := by
  refine ⟨by norm_num, by norm_num, fun s h0 h1 => ?_⟩
  have h : 0 ≤ 1 - s := by linarith
  constructor
  · have e : 939 / 1000 + 1 / 10 - maclaurinValue ((((11 : Nat) : ℝ) + s) / 4) = 1044058645833247 / 10240000000000000 * s ^ 0 * (1 - s) ^ 5 + 248320314829911 / 512000000000000 * s ^ 1 * (1 - s) ^ 4 + 59022856045513 / 64000000000000 * s ^ 2 * (1 - s) ^ 3 + 14020850644389 / 16000000000000 * s ^ 3 * (1 - s) ^ 2 + 3328927142347 / 8000000000000 * s ^ 4 * (1 - s) ^ 1 + 790030493771 / 10000000000000 * s ^ 5 * (1 - s) ^ 0 := by
      unfold maclaurinValue
      push_cast
      ring
    rw [e]
    positivity
  · have e : maclaurinValue ((((11 : Nat) : ℝ) + s) / 4) - 953 / 1000 + 1 / 10 = 860581354166753 / 10240000000000000 * s ^ 0 * (1 - s) ^ 5 + 227839685170089 / 512000000000000 * s ^ 1 * (1 - s) ^ 4 + 60017143954487 / 64000000000000 * s ^ 2 * (1 - s) ^ 3 + 15739149355611 / 16000000000000 * s ^ 3 * (1 - s) ^ 2 + 4111072857653 / 8000000000000 * s ^ 4 * (1 - s) ^ 1 + 1069969506229 / 10000000000000 * s ^ 5 * (1 - s) ^ 0 := by
      unfold maclaurinValue
      push_cast
      ring
    rw [e]
    positivity

private theorem piece12 : Piece 12 (119 / 125) (963 / 1000) := by
  refine ⟨by norm_num, by norm_num, fun s h0 h1 => ?_⟩
  have h : 0 ≤ 1 - s := by linarith
  constructor
  · have e : 119 / 125 + 1 / 10 - maclaurinValue ((((12 : Nat) : ℝ) + s) / 4) = 920030493771 / 10000000000000 * s ^ 0 * (1 - s) ^ 5 + 3511316807821 / 8000000000000 * s ^ 1 * (1 - s) ^ 4 + 13399967968181 / 16000000000000 * s ^ 2 * (1 - s) ^ 3 + 51139160899951 / 64000000000000 * s ^ 3 * (1 - s) ^ 2 + 195197683778231 / 512000000000000 * s ^ 4 * (1 - s) ^ 1 + 745292722128121 / 10240000000000000 * s ^ 5 * (1 - s) ^ 0 := by
      unfold maclaurinValue
      push_cast
      ring
    rw [e]
    positivity
  · have e : maclaurinValue ((((12 : Nat) : ℝ) + s) / 4) - 963 / 1000 + 1 / 10 = 969969506229 / 10000000000000 * s ^ 0 * (1 - s) ^ 5 + 4048683192179 / 8000000000000 * s ^ 1 * (1 - s) ^ 4 + 16840032031819 / 16000000000000 * s ^ 2 * (1 - s) ^ 3 + 69820839100049 / 64000000000000 * s ^ 3 * (1 - s) ^ 2 + 288642316221769 / 512000000000000 * s ^ 4 * (1 - s) ^ 1 + 1190067277871879 / 10240000000000000 * s ^ 5 * (1 - s) ^ 0 := by
      unfold maclaurinValue
      push_cast
      ring
    rw [e]
    positivity

private theorem piece13 : Piece 13 (481 / 500) (971 / 1000) := by
  refine ⟨by norm_num, by norm_num, fun s h0 h1 => ?_⟩
  have h : 0 ≤ 1 - s := by linarith
  constructor
  · have e : 481 / 500 + 1 / 10 - maclaurinValue ((((13 : Nat) : ℝ) + s) / 4) = 847692722128121 / 10240000000000000 * s ^ 0 * (1 - s) ^ 5 + 406097354571659 / 1024000000000000 * s ^ 1 * (1 - s) ^ 4 + 194658630615001 / 256000000000000 * s ^ 2 * (1 - s) ^ 3 + 93376806512699 / 128000000000000 * s ^ 3 * (1 - s) ^ 2 + 44833207444441 / 128000000000000 * s ^ 4 * (1 - s) ^ 1 + 21549251714379 / 320000000000000 * s ^ 5 * (1 - s) ^ 0 := by
      unfold maclaurinValue
      push_cast
      ring
    rw [e]
    positivity
  · have e : maclaurinValue ((((13 : Nat) : ℝ) + s) / 4) - 971 / 1000 + 1 / 10 = 1108147277871879 / 10240000000000000 * s ^ 0 * (1 - s) ^ 5 + 571822645428341 / 1024000000000000 * s ^ 1 * (1 - s) ^ 4 + 294301369384999 / 256000000000000 * s ^ 2 * (1 - s) ^ 3 + 151103193487301 / 128000000000000 * s ^ 3 * (1 - s) ^ 2 + 77406792555559 / 128000000000000 * s ^ 4 * (1 - s) ^ 1 + 39570748285621 / 320000000000000 * s ^ 5 * (1 - s) ^ 0 := by
      unfold maclaurinValue
      push_cast
      ring
    rw [e]
    positivity

private theorem piece14 : Piece 14 (97 / 100) (489 / 500) := by
  refine ⟨by norm_num, by norm_num, fun s h0 h1 => ?_⟩
  have h : 0 ≤ 1 - s := by linarith
  constructor
  · have e : 97 / 100 + 1 / 10 - maclaurinValue ((((14 : Nat) : ℝ) + s) / 4) = 24109251714379 / 320000000000000 * s ^ 0 * (1 - s) ^ 5 + 1859351976523 / 5120000000000 * s ^ 1 * (1 - s) ^ 4 + 17947834877447 / 25600000000000 * s ^ 2 * (1 - s) ^ 3 + 6940047996979 / 10240000000000 * s ^ 3 * (1 - s) ^ 2 + 2688000184439 / 8192000000000 * s ^ 4 * (1 - s) ^ 1 + 41720183403 / 655360000000 * s ^ 5 * (1 - s) ^ 0 := by
      unfold maclaurinValue
      push_cast
      ring
    rw [e]
    positivity
  · have e : maclaurinValue ((((14 : Nat) : ℝ) + s) / 4) - 489 / 500 + 1 / 10 = 37330748285621 / 320000000000000 * s ^ 0 * (1 - s) ^ 5 + 3055848023477 / 5120000000000 * s ^ 1 * (1 - s) ^ 4 + 31204165122553 / 25600000000000 * s ^ 2 * (1 - s) ^ 3 + 12720752003021 / 10240000000000 * s ^ 3 * (1 - s) ^ 2 + 5176319815561 / 8192000000000 * s ^ 4 * (1 - s) ^ 1 + 84108936597 / 655360000000 * s ^ 5 * (1 - s) ^ 0 := by
      unfold maclaurinValue
      push_cast
      ring
    rw [e]
    positivity

private theorem piece15 : Piece 15 (977 / 1000) (983 / 1000) := by
  refine ⟨by norm_num, by norm_num, fun s h0 h1 => ?_⟩
  have h : 0 ≤ 1 - s := by linarith
  constructor
  · have e : 977 / 1000 + 1 / 10 - maclaurinValue ((((15 : Nat) : ℝ) + s) / 4) = 46307703403 / 655360000000 * s ^ 0 * (1 - s) ^ 5 + 351717842617 / 1024000000000 * s ^ 1 * (1 - s) ^ 4 + 856495097433 / 1280000000000 * s ^ 2 * (1 - s) ^ 3 + 261256943417 / 400000000000 * s ^ 3 * (1 - s) ^ 2 + 31946933487 / 100000000000 * s ^ 4 * (1 - s) ^ 1 + 9788940977 / 156250000000 * s ^ 5 * (1 - s) ^ 0 := by
      unfold maclaurinValue
      push_cast
      ring
    rw [e]
    positivity
  · have e : maclaurinValue ((((15 : Nat) : ℝ) + s) / 4) - 983 / 1000 + 1 / 10 = 80832136597 / 655360000000 * s ^ 0 * (1 - s) ^ 5 + 641562157383 / 1024000000000 * s ^ 1 * (1 - s) ^ 4 + 1626704902567 / 1280000000000 * s ^ 2 * (1 - s) ^ 3 + 514743056583 / 400000000000 * s ^ 3 * (1 - s) ^ 2 + 65053066513 / 100000000000 * s ^ 4 * (1 - s) ^ 1 + 20523559023 / 156250000000 * s ^ 5 * (1 - s) ^ 0 := by
      unfold maclaurinValue
      push_cast
      ring
    rw [e]
    positivity

private theorem piece16 : Piece 16 (491 / 500) (493 / 500) := by
  refine ⟨by norm_num, by norm_num, fun s h0 h1 => ?_⟩
  have h : 0 ≤ 1 - s := by linarith
  constructor
  · have e : 491 / 500 + 1 / 10 - maclaurinValue ((((16 : Nat) : ℝ) + s) / 4) = 10570190977 / 156250000000 * s ^ 0 * (1 - s) ^ 5 + 166011443829 / 500000000000 * s ^ 1 * (1 - s) ^ 4 + 1306713139389 / 2000000000000 * s ^ 2 * (1 - s) ^ 3 + 20620515191343 / 32000000000000 * s ^ 3 * (1 - s) ^ 2 + 40774994316357 / 128000000000000 * s ^ 4 * (1 - s) ^ 1 + 646619203310429 / 10240000000000000 * s ^ 5 * (1 - s) ^ 0 := by
      unfold maclaurinValue
      push_cast
      ring
    rw [e]
    positivity
  · have e : maclaurinValue ((((16 : Nat) : ℝ) + s) / 4) - 493 / 500 + 1 / 10 = 20054809023 / 156250000000 * s ^ 0 * (1 - s) ^ 5 + 323988556171 / 500000000000 * s ^ 1 * (1 - s) ^ 4 + 2613286860611 / 2000000000000 * s ^ 2 * (1 - s) ^ 3 + 42099484808657 / 32000000000000 * s ^ 3 * (1 - s) ^ 2 + 84665005683643 / 128000000000000 * s ^ 4 * (1 - s) ^ 1 + 1360420796689571 / 10240000000000000 * s ^ 5 * (1 - s) ^ 0 := by
      unfold maclaurinValue
      push_cast
      ring
    rw [e]
    positivity

private theorem piece17 : Piece 17 (197 / 200) (99 / 100) := by
  refine ⟨by norm_num, by norm_num, fun s h0 h1 => ?_⟩
  have h : 0 ≤ 1 - s := by linarith
  constructor
  · have e : 197 / 200 + 1 / 10 - maclaurinValue ((((17 : Nat) : ℝ) + s) / 4) = 677339203310429 / 10240000000000000 * s ^ 0 * (1 - s) ^ 5 + 335779248779573 / 1024000000000000 * s ^ 1 * (1 - s) ^ 4 + 166863415779461 / 256000000000000 * s ^ 2 * (1 - s) ^ 3 + 83122063389197 / 128000000000000 * s ^ 3 * (1 - s) ^ 2 + 41504480308109 / 128000000000000 * s ^ 4 * (1 - s) ^ 1 + 20771133734853 / 320000000000000 * s ^ 5 * (1 - s) ^ 0 := by
      unfold maclaurinValue
      push_cast
      ring
    rw [e]
    positivity
  · have e : maclaurinValue ((((17 : Nat) : ℝ) + s) / 4) - 99 / 100 + 1 / 10 = 1319460796689571 / 10240000000000000 * s ^ 0 * (1 - s) ^ 5 + 662620751220427 / 1024000000000000 * s ^ 1 * (1 - s) ^ 4 + 332336584220539 / 256000000000000 * s ^ 2 * (1 - s) ^ 3 + 166477936610803 / 128000000000000 * s ^ 3 * (1 - s) ^ 2 + 83295519691891 / 128000000000000 * s ^ 4 * (1 - s) ^ 1 + 41628866265147 / 320000000000000 * s ^ 5 * (1 - s) ^ 0 := by
      unfold maclaurinValue
      push_cast
      ring
    rw [e]
    positivity

private theorem piece18 : Piece 18 (989 / 1000) (124 / 125) := by
  refine ⟨by norm_num, by norm_num, fun s h0 h1 => ?_⟩
  have h : 0 ≤ 1 - s := by linarith
  constructor
  · have e : 989 / 1000 + 1 / 10 - maclaurinValue ((((18 : Nat) : ℝ) + s) / 4) = 22051133734853 / 320000000000000 * s ^ 0 * (1 - s) ^ 5 + 44140054631303 / 128000000000000 * s ^ 1 * (1 - s) ^ 4 + 88544360681973 / 128000000000000 * s ^ 2 * (1 - s) ^ 3 + 177978849132263 / 256000000000000 * s ^ 3 * (1 - s) ^ 2 + 358425958917573 / 1024000000000000 * s ^ 4 * (1 - s) ^ 1 + 723085966763303 / 10240000000000000 * s ^ 5 * (1 - s) ^ 0 := by
      unfold maclaurinValue
      push_cast
      ring
    rw [e]
    positivity
  · have e : maclaurinValue ((((18 : Nat) : ℝ) + s) / 4) - 124 / 125 + 1 / 10 = 40988866265147 / 320000000000000 * s ^ 0 * (1 - s) ^ 5 + 81939945368697 / 128000000000000 * s ^ 1 * (1 - s) ^ 4 + 163615639318027 / 128000000000000 * s ^ 2 * (1 - s) ^ 3 + 326341150867737 / 256000000000000 * s ^ 3 * (1 - s) ^ 2 + 650214041082427 / 1024000000000000 * s ^ 4 * (1 - s) ^ 1 + 1294194033236697 / 10240000000000000 * s ^ 5 * (1 - s) ^ 0 := by
      unfold maclaurinValue
      push_cast
      ring
    rw [e]
    positivity

private theorem piece19 : Piece 19 (991 / 1000) (497 / 500) := by
  refine ⟨by norm_num, by norm_num, fun s h0 h1 => ?_⟩
  have h : 0 ≤ 1 - s := by linarith
  constructor
  · have e : 991 / 1000 + 1 / 10 - maclaurinValue ((((19 : Nat) : ℝ) + s) / 4) = 743565966763303 / 10240000000000000 * s ^ 0 * (1 - s) ^ 5 + 37490000784573 / 102400000000000 * s ^ 1 * (1 - s) ^ 4 + 9466644903021 / 12800000000000 * s ^ 2 * (1 - s) ^ 3 + 478801383627 / 640000000000 * s ^ 3 * (1 - s) ^ 2 + 4849783779 / 12800000000 * s ^ 4 * (1 - s) ^ 1 + 245901961 / 3200000000 * s ^ 5 * (1 - s) ^ 0 := by
      unfold maclaurinValue
      push_cast
      ring
    rw [e]
    positivity
  · have e : maclaurinValue ((((19 : Nat) : ℝ) + s) / 4) - 497 / 500 + 1 / 10 = 1273714033236697 / 10240000000000000 * s ^ 0 * (1 - s) ^ 5 + 63373999215427 / 102400000000000 * s ^ 1 * (1 - s) ^ 4 + 15749355096979 / 12800000000000 * s ^ 2 * (1 - s) ^ 3 + 781998616373 / 640000000000 * s ^ 3 * (1 - s) ^ 2 + 7758216221 / 12800000000 * s ^ 4 * (1 - s) ^ 1 + 384498039 / 3200000000 * s ^ 5 * (1 - s) ^ 0 := by
      unfold maclaurinValue
      push_cast
      ring
    rw [e]
    positivity

private theorem piece20 : Piece 20 (993 / 1000) (199 / 200) := by
  refine ⟨by norm_num, by norm_num, fun s h0 h1 => ?_⟩
  have h : 0 ≤ 1 - s := by linarith
  constructor
  · have e : 993 / 1000 + 1 / 10 - maclaurinValue ((((20 : Nat) : ℝ) + s) / 4) = 252301961 / 3200000000 * s ^ 0 * (1 - s) ^ 5 + 5114294661 / 12800000000 * s ^ 1 * (1 - s) ^ 4 + 518903560027 / 640000000000 * s ^ 2 * (1 - s) ^ 3 + 10539337956219 / 12800000000000 * s ^ 3 * (1 - s) ^ 2 + 42844393187741 / 102400000000000 * s ^ 4 * (1 - s) ^ 1 + 871356039940097 / 10240000000000000 * s ^ 5 * (1 - s) ^ 0 := by
      unfold maclaurinValue
      push_cast
      ring
    rw [e]
    positivity
  · have e : maclaurinValue ((((20 : Nat) : ℝ) + s) / 4) - 199 / 200 + 1 / 10 = 381298039 / 3200000000 * s ^ 0 * (1 - s) ^ 5 + 7557705339 / 12800000000 * s ^ 1 * (1 - s) ^ 4 + 748296439973 / 640000000000 * s ^ 2 * (1 - s) ^ 3 + 14804662043781 / 12800000000000 * s ^ 3 * (1 - s) ^ 2 + 58531606812259 / 102400000000000 * s ^ 4 * (1 - s) ^ 1 + 1156163960059903 / 10240000000000000 * s ^ 5 * (1 - s) ^ 0 := by
      unfold maclaurinValue
      push_cast
      ring
    rw [e]
    positivity

private theorem piece21 : Piece 21 (497 / 500) (249 / 250) := by
  refine ⟨by norm_num, by norm_num, fun s h0 h1 => ?_⟩
  have h : 0 ≤ 1 - s := by linarith
  constructor
  · have e : 497 / 500 + 1 / 10 - maclaurinValue ((((21 : Nat) : ℝ) + s) / 4) = 881596039940097 / 10240000000000000 * s ^ 0 * (1 - s) ^ 5 + 448032108062687 / 1024000000000000 * s ^ 1 * (1 - s) ^ 4 + 227814935309657 / 256000000000000 * s ^ 2 * (1 - s) ^ 3 + 115883809675607 / 128000000000000 * s ^ 3 * (1 - s) ^ 2 + 58960965765137 / 128000000000000 * s ^ 4 * (1 - s) ^ 1 + 30001388692847 / 320000000000000 * s ^ 5 * (1 - s) ^ 0 := by
      unfold maclaurinValue
      push_cast
      ring
    rw [e]
    positivity
  · have e : maclaurinValue ((((21 : Nat) : ℝ) + s) / 4) - 249 / 250 + 1 / 10 = 1145923960059903 / 10240000000000000 * s ^ 0 * (1 - s) ^ 5 + 565727891937313 / 1024000000000000 * s ^ 1 * (1 - s) ^ 4 + 279065064690343 / 256000000000000 * s ^ 2 * (1 - s) ^ 3 + 137556190324393 / 128000000000000 * s ^ 3 * (1 - s) ^ 2 + 67759034234863 / 128000000000000 * s ^ 4 * (1 - s) ^ 1 + 33358611307153 / 320000000000000 * s ^ 5 * (1 - s) ^ 0 := by
      unfold maclaurinValue
      push_cast
      ring
    rw [e]
    positivity

private theorem piece22 : Piece 22 (199 / 200) (997 / 1000) := by
  refine ⟨by norm_num, by norm_num, fun s h0 h1 => ?_⟩
  have h : 0 ≤ 1 - s := by linarith
  constructor
  · have e : 199 / 200 + 1 / 10 - maclaurinValue ((((22 : Nat) : ℝ) + s) / 4) = 30321388692847 / 320000000000000 * s ^ 0 * (1 - s) ^ 5 + 61684589006251 / 128000000000000 * s ^ 1 * (1 - s) ^ 4 + 125498302640063 / 128000000000000 * s ^ 2 * (1 - s) ^ 3 + 255313300413259 / 256000000000000 * s ^ 3 * (1 - s) ^ 2 + 519307141460207 / 1024000000000000 * s ^ 4 * (1 - s) ^ 1 + 1055920506256971 / 10240000000000000 * s ^ 5 * (1 - s) ^ 0 := by
      unfold maclaurinValue
      push_cast
      ring
    rw [e]
    positivity
  · have e : maclaurinValue ((((22 : Nat) : ℝ) + s) / 4) - 997 / 1000 + 1 / 10 = 33038611307153 / 320000000000000 * s ^ 0 * (1 - s) ^ 5 + 65035410993749 / 128000000000000 * s ^ 1 * (1 - s) ^ 4 + 127941697359937 / 128000000000000 * s ^ 2 * (1 - s) ^ 3 + 251566699586741 / 256000000000000 * s ^ 3 * (1 - s) ^ 2 + 494452858539793 / 1024000000000000 * s ^ 4 * (1 - s) ^ 1 + 971599493743029 / 10240000000000000 * s ^ 5 * (1 - s) ^ 0 := by
      unfold maclaurinValue
      push_cast
      ring
    rw [e]
    positivity

private theorem piece23 : Piece 23 (249 / 250) (499 / 500) := by
  refine ⟨by norm_num, by norm_num, fun s h0 h1 => ?_⟩
  have h : 0 ≤ 1 - s := by linarith
  constructor
  · have e : 249 / 250 + 1 / 10 - maclaurinValue ((((23 : Nat) : ℝ) + s) / 4) = 1066160506256971 / 10240000000000000 * s ^ 0 * (1 - s) ^ 5 + 135433341199191 / 256000000000000 * s ^ 1 * (1 - s) ^ 4 + 34397440468727 / 32000000000000 * s ^ 2 * (1 - s) ^ 3 + 4366271264877 / 4000000000000 * s ^ 3 * (1 - s) ^ 2 + 276965317741 / 500000000000 * s ^ 4 * (1 - s) ^ 1 + 35113606471 / 312500000000 * s ^ 5 * (1 - s) ^ 0 := by
      unfold maclaurinValue
      push_cast
      ring
    rw [e]
    positivity
  · have e : maclaurinValue ((((23 : Nat) : ℝ) + s) / 4) - 499 / 500 + 1 / 10 = 961359493743029 / 10240000000000000 * s ^ 0 * (1 - s) ^ 5 + 118006658800809 / 256000000000000 * s ^ 1 * (1 - s) ^ 4 + 28962559531273 / 32000000000000 * s ^ 2 * (1 - s) ^ 3 + 3553728735123 / 4000000000000 * s ^ 3 * (1 - s) ^ 2 + 218034682259 / 500000000000 * s ^ 4 * (1 - s) ^ 1 + 26761393529 / 312500000000 * s ^ 5 * (1 - s) ^ 0 := by
      unfold maclaurinValue
      push_cast
      ring
    rw [e]
    positivity

private theorem piece24 : Piece 24 (997 / 1000) (999 / 1000) := by
  refine ⟨by norm_num, by norm_num, fun s h0 h1 => ?_⟩
  have h : 0 ≤ 1 - s := by linarith
  constructor
  · have e : 997 / 1000 + 1 / 10 - maclaurinValue ((((24 : Nat) : ℝ) + s) / 4) = 35426106471 / 312500000000 * s ^ 0 * (1 - s) ^ 5 + 57470477159 / 100000000000 * s ^ 1 * (1 - s) ^ 4 + 931731488521 / 800000000000 * s ^ 2 * (1 - s) ^ 3 + 60376826249 / 51200000000 * s ^ 3 * (1 - s) ^ 2 + 1221577003523 / 2048000000000 * s ^ 4 * (1 - s) ^ 1 + 79011084541 / 655360000000 * s ^ 5 * (1 - s) ^ 0 := by
      unfold maclaurinValue
      push_cast
      ring
    rw [e]
    positivity
  · have e : maclaurinValue ((((24 : Nat) : ℝ) + s) / 4) - 999 / 1000 + 1 / 10 = 26448893529 / 312500000000 * s ^ 0 * (1 - s) ^ 5 + 41529522841 / 100000000000 * s ^ 1 * (1 - s) ^ 4 + 652268511479 / 800000000000 * s ^ 2 * (1 - s) ^ 3 + 40999173751 / 51200000000 * s ^ 3 * (1 - s) ^ 2 + 805942996477 / 2048000000000 * s ^ 4 * (1 - s) ^ 1 + 50750195459 / 655360000000 * s ^ 5 * (1 - s) ^ 0 := by
      unfold maclaurinValue
      push_cast
      ring
    rw [e]
    positivity

private theorem piece25 : Piece 25 (499 / 500) (999 / 1000) := by
  refine ⟨by norm_num, by norm_num, fun s h0 h1 => ?_⟩
  have h : 0 ≤ 1 - s := by linarith
  constructor
  · have e : 499 / 500 + 1 / 10 - maclaurinValue ((((25 : Nat) : ℝ) + s) / 4) = 79666444541 / 655360000000 * s ^ 0 * (1 - s) ^ 5 + 5031037553533 / 8192000000000 * s ^ 1 * (1 - s) ^ 4 + 2539322589401 / 2048000000000 * s ^ 2 * (1 - s) ^ 3 + 32007609248053 / 25600000000000 * s ^ 3 * (1 - s) ^ 2 + 16118606897441 / 25600000000000 * s ^ 4 * (1 - s) ^ 1 + 40531338753321 / 320000000000000 * s ^ 5 * (1 - s) ^ 0 := by
      unfold maclaurinValue
      push_cast
      ring
    rw [e]
    positivity
  · have e : maclaurinValue ((((25 : Nat) : ℝ) + s) / 4) - 999 / 1000 + 1 / 10 = 50750195459 / 655360000000 * s ^ 0 * (1 - s) ^ 5 + 3120002446467 / 8192000000000 * s ^ 1 * (1 - s) ^ 4 + 1536197410599 / 2048000000000 * s ^ 2 * (1 - s) ^ 3 + 18936390751947 / 25600000000000 * s ^ 3 * (1 - s) ^ 2 + 9353393102559 / 25600000000000 * s ^ 4 * (1 - s) ^ 1 + 23148661246679 / 320000000000000 * s ^ 5 * (1 - s) ^ 0 := by
      unfold maclaurinValue
      push_cast
      ring
    rw [e]
    positivity

private theorem piece26 : Piece 26 (499 / 500) (999 / 1000) := by
  refine ⟨by norm_num, by norm_num, fun s h0 h1 => ?_⟩
  have h : 0 ≤ 1 - s := by linarith
  constructor
  · have e : 499 / 500 + 1 / 10 - maclaurinValue ((((26 : Nat) : ℝ) + s) / 4) = 40531338753321 / 320000000000000 * s ^ 0 * (1 - s) ^ 5 + 81532320526079 / 128000000000000 * s ^ 1 * (1 - s) ^ 4 + 163795190395761 / 128000000000000 * s ^ 2 * (1 - s) ^ 3 + 328581256034759 / 256000000000000 * s ^ 3 * (1 - s) ^ 2 + 658092846580761 / 1024000000000000 * s ^ 4 * (1 - s) ^ 1 + 1315710233407279 / 10240000000000000 * s ^ 5 * (1 - s) ^ 0 := by
      unfold maclaurinValue
      push_cast
      ring
    rw [e]
    positivity
  · have e : maclaurinValue ((((26 : Nat) : ℝ) + s) / 4) - 999 / 1000 + 1 / 10 = 23148661246679 / 320000000000000 * s ^ 0 * (1 - s) ^ 5 + 45827679473921 / 128000000000000 * s ^ 1 * (1 - s) ^ 4 + 90924809604239 / 128000000000000 * s ^ 2 * (1 - s) ^ 3 + 180858743965241 / 256000000000000 * s ^ 3 * (1 - s) ^ 2 + 360787153419239 / 1024000000000000 * s ^ 4 * (1 - s) ^ 1 + 722049766592721 / 10240000000000000 * s ^ 5 * (1 - s) ^ 0 := by
      unfold maclaurinValue
      push_cast
      ring
    rw [e]
    positivity

private theorem piece27 : Piece 27 (499 / 500) (1 / 1) := by
  refine ⟨by norm_num, by norm_num, fun s h0 h1 => ?_⟩
  have h : 0 ≤ 1 - s := by linarith
  constructor
  · have e : 499 / 500 + 1 / 10 - maclaurinValue ((((27 : Nat) : ℝ) + s) / 4) = 1315710233407279 / 10240000000000000 * s ^ 0 * (1 - s) ^ 5 + 328808693413259 / 512000000000000 * s ^ 1 * (1 - s) ^ 4 + 82026449070129 / 64000000000000 * s ^ 2 * (1 - s) ^ 3 + 20422533921689 / 16000000000000 * s ^ 3 * (1 - s) ^ 2 + 5073621389739 / 8000000000000 * s ^ 4 * (1 - s) ^ 1 + 1257403774079 / 10000000000000 * s ^ 5 * (1 - s) ^ 0 := by
      unfold maclaurinValue
      push_cast
      ring
    rw [e]
    positivity
  · have e : maclaurinValue ((((27 : Nat) : ℝ) + s) / 4) - 1 / 1 + 1 / 10 = 711809766592721 / 10240000000000000 * s ^ 0 * (1 - s) ^ 5 + 178071306586741 / 512000000000000 * s ^ 1 * (1 - s) ^ 4 + 44693550929871 / 64000000000000 * s ^ 2 * (1 - s) ^ 3 + 11257466078311 / 16000000000000 * s ^ 3 * (1 - s) ^ 2 + 2846378610261 / 8000000000000 * s ^ 4 * (1 - s) ^ 1 + 722596225921 / 10000000000000 * s ^ 5 * (1 - s) ^ 0 := by
      unfold maclaurinValue
      push_cast
      ring
    rw [e]
    positivity

private theorem piece28 : Piece 28 (999 / 1000) (1 / 1) := by
  refine ⟨by norm_num, by norm_num, fun s h0 h1 => ?_⟩
  have h : 0 ≤ 1 - s := by linarith
  constructor
  · have e : 999 / 1000 + 1 / 10 - maclaurinValue ((((28 : Nat) : ℝ) + s) / 4) = 1267403774079 / 10000000000000 * s ^ 0 * (1 - s) ^ 5 + 5025608802893 / 8000000000000 * s ^ 1 * (1 - s) ^ 4 + 19878433226921 / 16000000000000 * s ^ 2 * (1 - s) ^ 3 + 78409790548967 / 64000000000000 * s ^ 3 * (1 - s) ^ 2 + 308324601539819 / 512000000000000 * s ^ 4 * (1 - s) ^ 1 + 1208164584454153 / 10240000000000000 * s ^ 5 * (1 - s) ^ 0 := by
      unfold maclaurinValue
      push_cast
      ring
    rw [e]
    positivity
  · have e : maclaurinValue ((((28 : Nat) : ℝ) + s) / 4) - 1 / 1 + 1 / 10 = 722596225921 / 10000000000000 * s ^ 0 * (1 - s) ^ 5 + 2934391197107 / 8000000000000 * s ^ 1 * (1 - s) ^ 4 + 11961566773079 / 16000000000000 * s ^ 2 * (1 - s) ^ 3 + 48950209451033 / 64000000000000 * s ^ 3 * (1 - s) ^ 2 + 201115398460181 / 512000000000000 * s ^ 4 * (1 - s) ^ 1 + 829595415545847 / 10240000000000000 * s ^ 5 * (1 - s) ^ 0 := by
      unfold maclaurinValue
      push_cast
      ring
    rw [e]
    positivity

private theorem piece29 : Piece 29 (999 / 1000) (1 / 1) := by
  refine ⟨by norm_num, by norm_num, fun s h0 h1 => ?_⟩
  have h : 0 ≤ 1 - s := by linarith
  constructor
  · have e : 999 / 1000 + 1 / 10 - maclaurinValue ((((29 : Nat) : ℝ) + s) / 4) = 1208164584454153 / 10240000000000000 * s ^ 0 * (1 - s) ^ 5 + 118303076274903 / 204800000000000 * s ^ 1 * (1 - s) ^ 4 + 57701068098149 / 51200000000000 * s ^ 2 * (1 - s) ^ 3 + 5604279839499 / 5120000000000 * s ^ 3 * (1 - s) ^ 2 + 108324196633 / 204800000000 * s ^ 4 * (1 - s) ^ 1 + 10408741223 / 102400000000 * s ^ 5 * (1 - s) ^ 0 := by
      unfold maclaurinValue
      push_cast
      ring
    rw [e]
    positivity
  · have e : maclaurinValue ((((29 : Nat) : ℝ) + s) / 4) - 1 / 1 + 1 / 10 = 829595415545847 / 10240000000000000 * s ^ 0 * (1 - s) ^ 5 + 85472923725097 / 204800000000000 * s ^ 1 * (1 - s) ^ 4 + 44186931901851 / 51200000000000 * s ^ 2 * (1 - s) ^ 3 + 4584520160501 / 5120000000000 * s ^ 3 * (1 - s) ^ 2 + 95451803367 / 204800000000 * s ^ 4 * (1 - s) ^ 1 + 9968858777 / 102400000000 * s ^ 5 * (1 - s) ^ 0 := by
      unfold maclaurinValue
      push_cast
      ring
    rw [e]
    positivity

private theorem piece30 : Piece 30 (999 / 1000) (1 / 1) := by
  refine ⟨by norm_num, by norm_num, fun s h0 h1 => ?_⟩
  have h : 0 ≤ 1 - s := by linarith
  constructor
  · have e : 999 / 1000 + 1 / 10 - maclaurinValue ((((30 : Nat) : ℝ) + s) / 4) = 10408741223 / 102400000000 * s ^ 0 * (1 - s) ^ 5 + 99850627827 / 204800000000 * s ^ 1 * (1 - s) ^ 4 + 4756922958899 / 5120000000000 * s ^ 2 * (1 - s) ^ 3 + 44960191393791 / 51200000000000 * s ^ 3 * (1 - s) ^ 2 + 84164613088039 / 204800000000000 * s ^ 4 * (1 - s) ^ 1 + 778380603700947 / 10240000000000000 * s ^ 5 * (1 - s) ^ 0 := by
      unfold maclaurinValue
      push_cast
      ring
    rw [e]
    positivity
  · have e : maclaurinValue ((((30 : Nat) : ℝ) + s) / 4) - 1 / 1 + 1 / 10 = 9968858777 / 102400000000 * s ^ 0 * (1 - s) ^ 5 + 103925372173 / 204800000000 * s ^ 1 * (1 - s) ^ 4 + 5431877041101 / 5120000000000 * s ^ 2 * (1 - s) ^ 3 + 56927808606209 / 51200000000000 * s ^ 3 * (1 - s) ^ 2 + 119611386911961 / 204800000000000 * s ^ 4 * (1 - s) ^ 1 + 1259379396299053 / 10240000000000000 * s ^ 5 * (1 - s) ^ 0 := by
      unfold maclaurinValue
      push_cast
      ring
    rw [e]
    positivity

private theorem piece31 : Piece 31 (999 / 1000) (1 / 1) := by
  refine ⟨by norm_num, by norm_num, fun s h0 h1 => ?_⟩
  have h : 0 ≤ 1 - s := by linarith
  constructor
  · have e : 999 / 1000 + 1 / 10 - maclaurinValue ((((31 : Nat) : ℝ) + s) / 4) = 778380603700947 / 10240000000000000 * s ^ 0 * (1 - s) ^ 5 + 22347346141297 / 64000000000000 * s ^ 1 * (1 - s) ^ 4 + 20191928723689 / 32000000000000 * s ^ 2 * (1 - s) ^ 3 + 557743783709 / 1000000000000 * s ^ 3 * (1 - s) ^ 2 + 119564180687 / 500000000000 * s ^ 4 * (1 - s) ^ 1 + 3063965357 / 78125000000 * s ^ 5 * (1 - s) ^ 0 := by
      unfold maclaurinValue
      push_cast
      ring
    rw [e]
    positivity
  · have e : maclaurinValue ((((31 : Nat) : ℝ) + s) / 4) - 1 / 1 + 1 / 10 = 1259379396299053 / 10240000000000000 * s ^ 0 * (1 - s) ^ 5 + 41332653858703 / 64000000000000 * s ^ 1 * (1 - s) ^ 4 + 43488071276311 / 32000000000000 * s ^ 2 * (1 - s) ^ 3 + 1432256216291 / 1000000000000 * s ^ 3 * (1 - s) ^ 2 + 377935819313 / 500000000000 * s ^ 4 * (1 - s) ^ 1 + 12482909643 / 78125000000 * s ^ 5 * (1 - s) ^ 0 := by
      unfold maclaurinValue
      push_cast
      ring
    rw [e]
    positivity

private theorem quarter : 1284 / 1000 ≤ Real.exp (1 / 4) ∧ Real.exp (1 / 4) ≤ 12841 / 10000 := by
  have e : Real.exp (1 / 4) ^ 4 = Real.exp 1 := by
    rw [← Real.exp_nat_mul]
    norm_num
  have h1 := Real.exp_one_gt_d9
  have h2 := Real.exp_one_lt_d9
  have hp := Real.exp_pos (1 / 4)
  constructor
  · refine le_of_pow_le_pow_left₀ (n := 4) (by norm_num) hp.le ?_
    rw [e]
    norm_num
    linarith
  · refine le_of_pow_le_pow_left₀ (n := 4) (by norm_num) (by norm_num) ?_
    rw [e]
    norm_num
    linarith

private theorem step (k : Nat) {a b : ℝ} (h : Piece k a b) (x : ℝ) (h0 : (k : ℝ) / 4 ≤ x) (h1 : x ≤ ((k : ℝ) + 1) / 4) :
    |maclaurinValue x - 1 / (1 + Real.exp (-x))| ≤ 1 / 10 := by
  obtain ⟨ha, hb, hp⟩ := h
  obtain ⟨p1, p2⟩ := hp (4 * x - k) (by linarith) (by linarith)
  have ex : ((k : ℝ) + (4 * x - k)) / 4 = x := by ring
  rw [ex] at p1 p2
  have hpos := Real.exp_pos x
  have hs : 1 / (1 + Real.exp (-x)) = Real.exp x / (1 + Real.exp x) := by
    rw [Real.exp_neg]
    field_simp
    ring
  obtain ⟨q1, q2⟩ := quarter
  have l1 : (1284 / 1000) ^ k ≤ Real.exp x := by
    calc _ ≤ Real.exp (1 / 4) ^ k := pow_le_pow_left₀ (by norm_num) q1 k
      _ = Real.exp (k * (1 / 4)) := by rw [Real.exp_nat_mul]
      _ ≤ _ := Real.exp_le_exp.mpr (by linarith)
  have l2 : Real.exp x ≤ (12841 / 10000) ^ (k + 1) := by
    calc Real.exp x ≤ Real.exp ((k + 1 : Nat) * (1 / 4)) := Real.exp_le_exp.mpr (by push_cast; linarith)
      _ = Real.exp (1 / 4) ^ (k + 1) := by rw [Real.exp_nat_mul]
      _ ≤ _ := pow_le_pow_left₀ (Real.exp_pos _).le q2 _
  have mono : ∀ u v : ℝ, 0 < u → u ≤ v → u / (1 + u) ≤ v / (1 + v) := by
    intro u v hu huv
    rw [div_le_div_iff₀ (by linarith) (by linarith)]
    nlinarith
  have hu : (0 : ℝ) < (1284 / 1000) ^ k := by positivity
  have hv : (0 : ℝ) < (12841 / 10000) ^ (k + 1) := by positivity
  have m1 := mono _ _ hu l1
  have m2 := mono _ _ hpos l2
  have ha' : a ≤ (1284 / 1000) ^ k / (1 + (1284 / 1000) ^ k) := by rwa [le_div_iff₀ (by linarith)]
  have hb' : (12841 / 10000) ^ (k + 1) / (1 + (12841 / 10000) ^ (k + 1)) ≤ b := by rwa [div_le_iff₀ (by linarith)]
  rw [hs, abs_le]
  constructor <;> linarith

private theorem maclaurin_pos (x : ℝ) (h0 : 0 ≤ x) (h8 : x ≤ 8) : |maclaurinValue x - 1 / (1 + Real.exp (-x))| ≤ 1 / 10 := by
  rcases h8.eq_or_lt with rfl | h8
  · exact step 31 piece31 8 (by norm_num) (by norm_num)
  have hf := Nat.floor_le (a := 4 * x) (by linarith)
  have hg := Nat.lt_floor_add_one (4 * x)
  have hk : ⌊4 * x⌋₊ < 32 := (Nat.floor_lt (by linarith)).mpr (by norm_num; linarith)
  generalize ⌊4 * x⌋₊ = k at hf hg hk
  have a0 : (k : ℝ) / 4 ≤ x := by linarith
  have a1 : x ≤ ((k : ℝ) + 1) / 4 := by linarith
  clear hf hg
  interval_cases k
  · exact step 0 piece0 x a0 a1
  · exact step 1 piece1 x a0 a1
  · exact step 2 piece2 x a0 a1
  · exact step 3 piece3 x a0 a1
  · exact step 4 piece4 x a0 a1
  · exact step 5 piece5 x a0 a1
  · exact step 6 piece6 x a0 a1
  · exact step 7 piece7 x a0 a1
  · exact step 8 piece8 x a0 a1
  · exact step 9 piece9 x a0 a1
  · exact step 10 piece10 x a0 a1
  · exact step 11 piece11 x a0 a1
  · exact step 12 piece12 x a0 a1
  · exact step 13 piece13 x a0 a1
  · exact step 14 piece14 x a0 a1
  · exact step 15 piece15 x a0 a1
  · exact step 16 piece16 x a0 a1
  · exact step 17 piece17 x a0 a1
  · exact step 18 piece18 x a0 a1
  · exact step 19 piece19 x a0 a1
  · exact step 20 piece20 x a0 a1
  · exact step 21 piece21 x a0 a1
  · exact step 22 piece22 x a0 a1
  · exact step 23 piece23 x a0 a1
  · exact step 24 piece24 x a0 a1
  · exact step 25 piece25 x a0 a1
  · exact step 26 piece26 x a0 a1
  · exact step 27 piece27 x a0 a1
  · exact step 28 piece28 x a0 a1
  · exact step 29 piece29 x a0 a1
  · exact step 30 piece30 x a0 a1
  · exact step 31 piece31 x a0 a1

/-- C53: for `|x| ≤ 8`, `sigmoid` with `method="maclaurin"` is within 0.1 of the logistic function. -/
theorem C53_maclaurin_accuracy {n : Nat} (x : Fin n → ℝ) (hx : ∀ i, |x i| ≤ 8) :
    ∃ z, sigmoidMaclaurin (exactOps ℝ) x = .ok z ∧ ∀ i, |z i - 1 / (1 + Real.exp (-x i))| ≤ 1 / 10 := by
  refine ⟨_, (C53_sigmoid_maclaurin x).1, fun i => ?_⟩
  have hb := abs_le.mp (hx i)
  rcases le_total 0 (x i) with h | h
  · exact maclaurin_pos _ h hb.2
  · have := maclaurin_pos (-x i) (by linarith) (by linarith)
    have hv := (C53_sigmoid_maclaurin x).2 (x i)
    have he : 1 / (1 + Real.exp (-(-x i))) = 1 - 1 / (1 + Real.exp (-x i)) := by
      have := Real.exp_pos (x i)
      rw [neg_neg, Real.exp_neg]
      field_simp
      ring
    rw [he] at this
    rw [← abs_neg]
    convert this using 2
    linarith

example : ∀ i, |(![-8, 0, 5 / 2] : Fin 3 → ℝ) i| ≤ 8 := by
  intro i
  fin_cases i <;> norm_num [abs_le]

/-- C53 (the code violates the claim for large `x`): the Maclaurin polynomial is not clipped; from 12 on it is more than `x / 3`. -/
theorem C53_maclaurin_unbounded {n : Nat} (x : Fin n → ℝ) (hx : ∀ i, 12 ≤ x i) :
    ∃ z, sigmoidMaclaurin (exactOps ℝ) x = .ok z ∧ ∀ i, x i / 3 ≤ z i := by
  refine ⟨_, (C53_sigmoid_maclaurin x).1, fun i => ?_⟩
  have h := hx i
  have e : maclaurinValue (x i) - x i / 3 = 208878073789 / 156250000000 * (x i - 12) ^ 0 + 839306596849 / 375000000000 * (x i - 12) ^ 1 + 70229184633 / 125000000000 * (x i - 12) ^ 2 + 27996401281 / 500000000000 * (x i - 12) ^ 3 + 1262072409 / 500000000000 * (x i - 12) ^ 4 + 420690803 / 10000000000000 * (x i - 12) ^ 5 := by
    unfold maclaurinValue
    ring
  have ht : 0 ≤ x i - 12 := by linarith
  have : 0 ≤ maclaurinValue (x i) - x i / 3 := by
    rw [e]
    positivity
  linarith

example : ∀ i, 12 ≤ (![12, 100] : Fin 2 → ℝ) i := by
  intro i
  fin_cases i <;> norm_num

end SyMPC
