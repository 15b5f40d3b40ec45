import Mathlib.Data.Rat.Defs

/-!
# Model of the Butcher tableaus
(`/repo/lib/Dialect/BaseModelica/Transforms/RungeKutta.cpp`, lines 22-421 and 606-635)

The coefficients are `double`s in the code; here they are the rational numbers that the C++
expressions denote before rounding. Rows and columns are counted from 1 as in the code. The accesses
outside the vectors (assertions at lines 359-360, 381, 397, 409) do not occur for the tableaus
below, whose vectors have the sizes given to the constructor.
-/

namespace Marco.RK

/-- ButcherTableau (RungeKutta.cpp:22-100). -/
structure Tableau where
  rows : ℕ
  columns : ℕ
  coefficients : List ℚ
  weights : List ℚ
  adaptiveWeights : List ℚ
  nodes : List ℚ
  deriving DecidableEq, Repr

/-- RungeKutta.cpp:358-362. -/
def Tableau.getCoefficient (t : Tableau) (row column : ℕ) : ℚ :=
  t.coefficients.getD ((row - 1) * t.columns + (column - 1)) 0

/-- RungeKutta.cpp:364-372. -/
def Tableau.hasNonZeroOrderCoefficients (t : Tableau) (row : ℕ) : Bool :=
  (List.range t.columns).any fun i => t.getCoefficient row (i + 1) != 0

/-- RungeKutta.cpp:380-383. -/
def Tableau.getWeight (t : Tableau) (column : ℕ) : ℚ := t.weights.getD (column - 1) 0

/-- RungeKutta.cpp:391-394. -/
def Tableau.isAdaptive (t : Tableau) : Bool := t.adaptiveWeights.any (· != 0)

/-- RungeKutta.cpp:396-399. -/
def Tableau.getAdaptiveWeight (t : Tableau) (column : ℕ) : ℚ :=
  t.adaptiveWeights.getD (column - 1) 0

/-- RungeKutta.cpp:408-411. -/
def Tableau.getNode (t : Tableau) (row : ℕ) : ℚ := t.nodes.getD (row - 1) 0

/-- RungeKutta.cpp:103-115. The adaptive weights are zero from the constructor (line 350), here and
in the other tableaus that do not set them. -/
def eulerForward : Tableau where
  rows := 1
  columns := 1
  coefficients := [0]
  nodes := [0]
  weights := [1]
  adaptiveWeights := [0]

/-- RungeKutta.cpp:117-141. -/
def rk4 : Tableau where
  rows := 4
  columns := 4
  coefficients :=
    [0,   0,   0, 0,
     1/2, 0,   0, 0,
     0,   1/2, 0, 0,
     0,   0,   1, 0]
  nodes := [0, 1/2, 1/2, 1]
  weights := [1/6, 1/3, 1/3, 1/6]
  adaptiveWeights := [0, 0, 0, 0]

/-- RungeKutta.cpp:143-163. -/
def genericMidPoint (alpha : ℚ) : Tableau where
  rows := 2
  columns := 2
  coefficients :=
    [0,     0,
     alpha, 0]
  nodes := [0, alpha]
  weights := [1 - 1 / (2 * alpha), 1 / (2 * alpha)]
  adaptiveWeights := [0, 0]

/-- RungeKutta.cpp:165-167. -/
def midpoint : Tableau := genericMidPoint (1/2)

/-- RungeKutta.cpp:169-171. -/
def heun : Tableau := genericMidPoint 1

/-- RungeKutta.cpp:173-175. -/
def ralston : Tableau := genericMidPoint (2/3)

/-- RungeKutta.cpp:177-199. -/
def heunEuler : Tableau where
  rows := 2
  columns := 2
  coefficients :=
    [0, 0,
     1, 0]
  nodes := [0, 1]
  weights := [1/2, 1/2]
  adaptiveWeights := [1, 0]

/-- RungeKutta.cpp:201-227. -/
def bogackiShampine : Tableau where
  rows := 4
  columns := 4
  coefficients :=
    [0,   0,   0,   0,
     1/2, 0,   0,   0,
     0,   3/4, 0,   0,
     2/9, 1/3, 4/9, 0]
  nodes := [0, 1/2, 3/4, 1]
  weights := [2/9, 1/3, 4/9, 0]
  adaptiveWeights := [7/24, 1/4, 1/3, 1/8]

/-- RungeKutta.cpp:229-259. -/
def fehlberg : Tableau where
  rows := 6
  columns := 6
  coefficients :=
    [0,         0,          0,          0,         0,      0,
     1/4,       0,          0,          0,         0,      0,
     3/32,      9/32,       0,          0,         0,      0,
     1932/2197, -7200/2197, 7296/2197,  0,         0,      0,
     439/216,   -8,         3680/513,   -845/4104, 0,      0,
     -8/27,     2,          -3544/2565, 1859/4104, -11/40, 0]
  nodes := [0, 1/4, 3/8, 12/13, 1, 1/2]
  weights := [16/135, 0, 6656/12825, 28561/56430, -9/50, 2/55]
  adaptiveWeights := [25/216, 0, 1408/2565, 2197/4104, -1/5, 0]

/-- RungeKutta.cpp:261-291. -/
def cashKarp : Tableau where
  rows := 6
  columns := 6
  coefficients :=
    [0,          0,       0,         0,            0,        0,
     1/5,        0,       0,         0,            0,        0,
     3/40,       9/40,    0,         0,            0,        0,
     3/10,       -9/10,   6/5,       0,            0,        0,
     -11/54,     5/2,     -70/27,    35/27,        0,        0,
     1631/55296, 175/512, 575/13824, 44275/110592, 253/4096, 0]
  nodes := [0, 1/5, 3/10, 3/5, 1, 7/8]
  weights := [37/378, 0, 250/521, 125/594, 0, 512/1771]
  adaptiveWeights := [2825/27648, 0, 18575/48384, 13535/55296, 277/14336, 1/4]

/-- RungeKutta.cpp:293-325. -/
def dormandPrince : Tableau where
  rows := 7
  columns := 7
  coefficients :=
    [0,          0,           0,          0,        0,           0,     0,
     1/5,        0,           0,          0,        0,           0,     0,
     3/40,       9/40,        0,          0,        0,           0,     0,
     44/45,      -56/15,      32/9,       0,        0,           0,     0,
     19372/6561, -25360/2187, 64448/6561, -212/729, 0,           0,     0,
     9017/3168,  -355/33,     46732/5247, 49/176,   -5103/18656, 0,     0,
     35/384,     0,           500/1113,   125/192,  -2187/6784,  11/84, 0]
  nodes := [0, 1/5, 3/10, 4/5, 8/9, 1, 1]
  weights := [35/384, 0, 500/1113, 125/192, -2187/6784, 11/84, 0]
  adaptiveWeights := [5179/57600, 0, 7571/16695, 393/640, -92097/339200, 187/2100, 1/40]

/-- RungeKutta.cpp:327-342. -/
def eulerBackward : Tableau where
  rows := 1
  columns := 1
  coefficients := [1]
  nodes := [1]
  weights := [1]
  adaptiveWeights := [0]

/-- RungeKutta.cpp:611-635: the tableau for the variant given as option. -/
def tableauOf (variant : String) : Tableau :=
  if variant = "euler-forward" then eulerForward
  else if variant = "rk4" then rk4
  else if variant = "midpoint" then midpoint
  else if variant = "heun" then heun
  else if variant = "ralston" then ralston
  else if variant = "heun-euler" then heunEuler
  else if variant = "bogacki-shampine" then bogackiShampine
  else if variant = "fehlberg" then fehlberg
  else if variant = "cash-karp" then cashKarp
  else if variant = "dormand-prince" then dormandPrince
  else if variant = "euler-backward" then eulerBackward
  else rk4

end Marco.RK
