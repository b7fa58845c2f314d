import Mathlib.Algebra.Group.PUnit
import Verif.Model.TensorExpr

/-!
# Shapes of samples and log-probabilities, distribution by distribution

Every method is followed at the level of shapes: a parameter is its static and its run-time shape, a
TensorFlow operation is its effect on the run-time shape (and on the static one where the Python code
branches on it).  `none` is an error.
-/

set_option autoImplicit false

namespace ZhuSuan.Shape

/-- The shape of a graph tensor.  (`get_shape()` and `tf.shape` of the tensors of
distributions/{univariate,multivariate}.py, e.g. distributions/univariate.py 153–159) -/
structure P where
  st : Static
  rt : List ℕ

/-- A binary elementwise operation.  (TensorFlow primitive; used at distributions/univariate.py 153–159, 632–659.) -/
def P.bcast (x y : P) : Option P :=
  (sbcast x.st y.st).bind (fun s => (Shape.bcast x.rt y.rt).map (fun c => ⟨s, c⟩))

/-- `tf.expand_dims(x, -1)`.  (TensorFlow primitive; used at distributions/multivariate.py 158, 182.) -/
def P.expandLast (x : P) : P := ⟨x.st.concat (some [some 1]), x.rt ++ [1]⟩

/-- `maybe_explicit_broadcast` on shapes (the tensors' values do not matter: unit entries).  (distributions/utils.py
52–78) -/
def P.meb (x y : P) : Option (P × P) :=
  match maybeExplicitBroadcast (α := PUnit) ⟨x.st, ⟨x.rt, fun _ => 1⟩⟩ ⟨y.st, ⟨y.rt, fun _ => 1⟩⟩ with
  | .ok (a, b) => some (⟨a.static, a.rt.shape⟩, ⟨b.static, b.rt.shape⟩)
  | _ => none

/-- `tf.transpose` of a matrix.  (TensorFlow primitive; used at distributions/univariate.py 483,
distributions/multivariate.py 303, 527.) -/
def transpose2 : List ℕ → Option (List ℕ)
  | [a, b] => some [b, a]
  | _ => none

/-- `tf.random.categorical(logits, n)`.  (TensorFlow primitive; used at distributions/univariate.py 484,
distributions/multivariate.py 304, 528.) -/
def categorical2 (n : ℕ) : List ℕ → Option (List ℕ)
  | [b, k] => if k = 0 then none else some [b, n]
  | _ => none

/-- `tf.reshape(x, [-1, k])`.  (TensorFlow primitive; used at distributions/univariate.py 482,
distributions/multivariate.py 302, 526, 550–551.) -/
def reshapeRows (k : ℕ) (s : List ℕ) : Option (List ℕ) :=
  if k = 0 then none else if k ∣ s.prod then some [s.prod / k, k] else none

/-- `tf.reshape(x, shape)`.  (TensorFlow primitive; used at distributions/univariate.py 489, 1038,
distributions/multivariate.py 307, 533, 557.) -/
def reshapeTo (tgt s : List ℕ) : Option (List ℕ) := if s.prod = tgt.prod then some tgt else none

/-- The last two axes of a shape.  (the convention of `tf.matmul` and `tf.matrix_*`, distributions/multivariate.py
160, 1115–1116) -/
def splitLast2 (s : List ℕ) : Option (List ℕ × ℕ × ℕ) :=
  match s.reverse with
  | k :: m :: rb => some (rb.reverse, m, k)
  | _ => none

/-- `tf.matmul` (TensorFlow 1: batch axes must agree).  (TensorFlow primitive; used at distributions/multivariate.py
160, 1115–1116.) -/
def matmul2 (a b : List ℕ) : Option (List ℕ) :=
  (splitLast2 a).bind (fun (ba, m, k) => (splitLast2 b).bind (fun (bb, k', n) =>
    if ba = bb ∧ k = k' then some (ba ++ [m, n]) else none))

/-- `tf.matrix_transpose`.  (TensorFlow primitive; used at distributions/multivariate.py 1116, 1154.) -/
def matTranspose (a : List ℕ) : Option (List ℕ) := (splitLast2 a).map (fun (b, m, n) => b ++ [n, m])

/-- `tf.matrix_triangular_solve(L, y)`.  (TensorFlow primitive; used at distributions/multivariate.py 186,
1153–1154.) -/
def triSolve (l y : List ℕ) : Option (List ℕ) :=
  (splitLast2 l).bind (fun (bl, m, m') => (splitLast2 y).bind (fun (b, k, _) =>
    if bl = b ∧ m = m' ∧ m = k then some y else none))

/-- `tf.squeeze(x, -1)`.  (TensorFlow primitive; used at distributions/multivariate.py 161, 187.) -/
def squeezeLast (s : List ℕ) : Option (List ℕ) :=
  match s.reverse with
  | 1 :: r => some r.reverse
  | _ => none

/-- A reduction of the last axis.  (TensorFlow primitive; used at distributions/multivariate.py 172, 332, 442, 676,
810.) -/
def dropLastAxis (s : List ℕ) : Option (List ℕ) :=
  match s.reverse with
  | _ :: r => some r.reverse
  | [] => none

/-- `tf.matrix_diag_part`.  (TensorFlow primitive; used at distributions/multivariate.py 173, 1130, 1132.) -/
def diagPart (s : List ℕ) : Option (List ℕ) := (splitLast2 s).map (fun (b, m, n) => b ++ [min m n])

/-- The distributions of `zhusuan.distributions` with their parameters (shapes only).  (the classes of
distributions/univariate.py 43–1402 and distributions/multivariate.py 41–1160) -/
inductive Dist where
  | normal (mean std : P)
  | foldNormal (mean std : P)
  | bernoulli (logits : P)
  | categorical (logits : P)
  | uniform (minval maxval : P)
  | gamma (alpha beta : P)
  | beta (alpha beta : P)
  | poisson (rate : P)
  | binomial (logits : P) (nExperiments : ℕ)
  | inverseGamma (alpha beta : P)
  | laplace (loc scale : P)
  | binConcrete (temperature logits : P)
  | mvn (mean covTril : P)
  | multinomial (logits : P) (nExperiments : Option ℕ)
  | unnormalizedMultinomial (logits : P)
  | onehot (logits : P)
  | dirichlet (alpha : P)
  | expConcrete (temperature logits : P)
  | concrete (temperature logits : P)
  | matrixNormal (mean uTril vTril : P)

/-- `get_shape_at(t, axis) if isinstance(..., int) else None`: the statically known size.
(distributions/multivariate.py 132–135, 282–285, 416–419, 509–512, 647–650) -/
def intAt (s : Static) (axis : ℤ) : Option ℕ :=
  match getShapeList s with
  | some (x :: xs) => match pyIndex (x :: xs) axis with
    | some (Size.static n) => some n
    | _ => none
  | _ => none

/-- `logits.get_shape()[:-k]` with the unknown-rank case spelled out, as in every multivariate
`_get_batch_shape` (e.g. univariate.py 473–476, multivariate.py 140–143, 1094–1097). -/
def staticButLast (s : Static) (k : ℕ) : Static := if s.truthy then s.dropEnd k else none

namespace Dist

/-- `_get_batch_shape` of each class.  (distributions/univariate.py 157–159, 302–304, 383–384, 473–476, 628–630,
729–731, 822–824, 912–913, 1022–1023, 1137–1139, 1242–1244, 1360–1361; distributions/multivariate.py 140–143,
290–293, 424–427, 517–520, 655–658, 776–779, 914–917, 1094–1097) -/
def getBatch : Dist → Option Static
  | normal a b | foldNormal a b | uniform a b | gamma a b | beta a b | inverseGamma a b
  | laplace a b => sbcast a.st b.st
  | bernoulli l | poisson l | binomial l _ | binConcrete _ l => some l.st
  | categorical l | multinomial l _ | unnormalizedMultinomial l | onehot l | dirichlet l
  | expConcrete _ l | concrete _ l => some (staticButLast l.st 1)
  | mvn m _ => some (staticButLast m.st 1)
  | matrixNormal m _ _ => some (staticButLast m.st 2)

/-- `shape[:-k]` on a run-time shape.  (used by `_batch_shape`, distributions/univariate.py 470–471;
distributions/multivariate.py 137–138, 1091–1092) -/
def butLast (s : List ℕ) (k : ℕ) : List ℕ := s.take (s.length - k)

/-- `_batch_shape` of each class (the run-time computation).  (distributions/univariate.py 153–155, 298–300,
380–381, 470–471, 624–626, 725–727, 818–820, 909–910, 1019–1020, 1133–1135, 1238–1240, 1357–1358;
distributions/multivariate.py 137–138, 287–288, 421–422, 514–515, 652–653, 773–774, 911–912, 1091–1092) -/
def batchDyn : Dist → Option (List ℕ)
  | normal a b | foldNormal a b | uniform a b | gamma a b | beta a b | inverseGamma a b
  | laplace a b => Shape.bcast a.rt b.rt
  | bernoulli l | poisson l | binomial l _ | binConcrete _ l => some l.rt
  | categorical l | multinomial l _ | unnormalizedMultinomial l | onehot l | dirichlet l
  | expConcrete _ l | concrete _ l => some (butLast l.rt 1)
  | mvn m _ => some (butLast m.rt 1)
  | matrixNormal m _ _ => some (butLast m.rt 2)

/-- `batch_shape` (base.py 201–212). -/
def batchShape (d : Dist) : Option (List ℕ) :=
  d.getBatch.bind (fun s => d.batchDyn.map (fun b => reportShape s b))

/-- `_get_value_shape` of each class.  (distributions/univariate.py 150–151 and the same in each class;
distributions/multivariate.py 132–135, 282–285, 416–419, 509–512, 647–650, 768–771, 906–909, 1085–1089) -/
def getValue : Dist → Static
  | normal _ _ | foldNormal _ _ | uniform _ _ | gamma _ _ | beta _ _ | inverseGamma _ _
  | laplace _ _ | bernoulli _ | poisson _ | binomial _ _ | binConcrete _ _ | categorical _ => some []
  | multinomial l _ | unnormalizedMultinomial l | onehot l | dirichlet l
  | expConcrete _ l | concrete _ l => some [intAt l.st (-1)]
  | mvn m _ => some [intAt m.st (-1)]
  | matrixNormal m _ _ => some [intAt m.st (-2), intAt m.st (-1)]

/-- `_value_shape` of each class.  (distributions/univariate.py 147–148 and the same in each class;
distributions/multivariate.py 129–130, 279–280, 413–414, 506–507, 644–645, 765–766, 903–904, 1082–1083) -/
def valueDyn : Dist → Option (List ℕ)
  | normal _ _ | foldNormal _ _ | uniform _ _ | gamma _ _ | beta _ _ | inverseGamma _ _
  | laplace _ _ | bernoulli _ | poisson _ | binomial _ _ | binConcrete _ _ | categorical _ => some []
  | multinomial l _ | unnormalizedMultinomial l | onehot l | dirichlet l
  | expConcrete _ l | concrete _ l => (getShapeAt l.st l.rt (-1)).map ([·])
  | mvn m _ => (getShapeAt m.st m.rt (-1)).map ([·])
  | matrixNormal m _ _ =>
    (getShapeAt m.st m.rt (-2)).bind (fun r => (getShapeAt m.st m.rt (-1)).map (fun c => [r, c]))

/-- `value_shape` (base.py 168–176). -/
def valueShape (d : Dist) : Option (List ℕ) := d.valueDyn.map (fun v => reportShape d.getValue v)

/-- `[n_samples] + batch_shape`, then `* std + mean` (univariate.py 161–172, 306–317, 632–644,
1246–1265): the noise is combined with `y`, then with `x`. -/
def locScaleSample (d : Dist) (y x : Option (List ℕ)) (n : ℕ) : Option (List ℕ) :=
  d.batchShape.bind (fun b => y.bind (fun y => x.bind (fun x =>
    (Shape.bcast (n :: b) y).bind (fun s => Shape.bcast s x))))

/-- `logits_flat` of the categorical-like samplers: `logits` when its static rank is 2, else
`tf.reshape(logits, [-1, n_categories])` (univariate.py 479–482, multivariate.py 299–302, 523–526). -/
def logitsFlat (l : P) : Option (List ℕ) :=
  if l.st.map List.length = some 2 then some l.rt
  else (getShapeAt l.st l.rt (-1)).bind (fun k => reshapeRows k l.rt)

/-- `_sample(n)` of each class, at the level of shapes.  (distributions/univariate.py 161–172, 306–317, 386–396,
478–494, 632–644, 733–735, 826–831, 915–920, 1025–1045, 1141–1144, 1246–1265, 1363–1379;
distributions/multivariate.py 145–167, 295–318, 429–433, 522–540, 660–663, 781–795, 919–934, 1099–1122) -/
def sampleN (d : Dist) (n : ℕ) : Option (List ℕ) :=
  match d with
  -- random_normal(shape) * std + mean
  | normal m s | foldNormal m s => locScaleSample d (some s.rt) (some m.rt) n
  -- cast(less(uniform(shape), sigmoid(logits)))
  | bernoulli l => d.batchShape.bind (fun b => Shape.bcast (n :: b) l.rt)
  | categorical l =>
    (logitsFlat l).bind (fun f => (categorical2 n f).bind (fun c => (transpose2 c).bind (fun t =>
      if l.st.map List.length = some 2 then some t
      else d.batchShape.bind (fun b => reshapeTo (n :: b) t))))
  -- uniform(shape) * (maxval - minval) + minval
  | uniform lo hi => locScaleSample d (Shape.bcast hi.rt lo.rt) (some lo.rt) n
  | gamma a b | inverseGamma a b => (Shape.bcast a.rt b.rt).map (n :: ·)
  -- x / (x + y)
  | beta a b => (P.meb a b).bind (fun (a', b') =>
      (Shape.bcast (n :: a'.rt) (n :: b'.rt)).bind (fun s => Shape.bcast (n :: a'.rt) s))
  | poisson r => some (n :: r.rt)
  | binomial l ne =>
    let flat := if l.st.map List.length = some 1 then l.rt else [l.rt.prod]
    (categorical2 (n * ne) (flat ++ [2])).bind (fun c => (transpose2 c).bind (fun t =>
      d.batchShape.bind (fun b => (reshapeTo (ne :: n :: b) t).map List.tail)))
  -- loc - (scale * sign(u)) * log1p(-abs(u))
  | laplace loc sc => d.batchShape.bind (fun b =>
      (Shape.bcast sc.rt (n :: b)).bind (fun s => (Shape.bcast s (n :: b)).bind (fun s' =>
        Shape.bcast loc.rt s')))
  -- sigmoid((logits + logistic) / temperature)
  | binConcrete t l => d.batchShape.bind (fun b =>
      (Shape.bcast l.rt (n :: b)).bind (fun s => Shape.bcast s t.rt))
  -- squeeze(matmul(tile(cov), noise) + expand_dims(tile(mean), -1), -1)
  | mvn m c => (matmul2 (n :: c.rt) (n :: m.rt ++ [1])).bind (fun s =>
      (Shape.bcast s (n :: m.rt ++ [1])).bind squeezeLast)
  | multinomial _ none => none
  | multinomial l (some ne) =>
    (logitsFlat l).bind (fun f => (categorical2 (n * ne) f).bind (fun c => (transpose2 c).bind (fun t =>
      d.batchShape.bind (fun b => (reshapeTo (n :: ne :: b) t).bind (fun _ =>
        (getShapeAt l.st l.rt (-1)).map (fun k => n :: b ++ [k]))))))
  | unnormalizedMultinomial _ => none
  | onehot l =>
    (logitsFlat l).bind (fun f => (categorical2 n f).bind (fun c => (transpose2 c).bind (fun t =>
      (if l.st.map List.length = some 2 then some t
       else d.batchShape.bind (fun b => reshapeTo (n :: b) t)).bind (fun s =>
        (getShapeAt l.st l.rt (-1)).map (fun k => s ++ [k])))))
  -- samples / reduce_sum(samples, -1, keepdims)
  | dirichlet a => (dropLastAxis (n :: a.rt)).bind (fun r => Shape.bcast (n :: a.rt) (r ++ [1]))
  | expConcrete t l | concrete t l =>
      (Shape.bcast l.rt (n :: l.rt)).bind (fun s => Shape.bcast s t.rt)
  -- mean + matmul(matmul(tile(u), noise), matrix_transpose(tile(v)))
  | matrixNormal m u v => (matmul2 (n :: u.rt) (n :: m.rt)).bind (fun a =>
      (matTranspose (n :: v.rt)).bind (fun vt => (matmul2 a vt).bind (fun s => Shape.bcast m.rt s)))

/-- An `n_samples` argument: `None`, a Python `int`, or anything else by its conversion to an `int32`
tensor (rank and value).  (distributions/base.py 251–263) -/
inductive NSamples where
  | none
  | int (n : ℕ)
  | tensor (rank : ℕ) (n : ℕ)

/-- `Distribution.sample` (base.py 236–263). -/
def sample (d : Dist) : NSamples → Option (List ℕ)
  | .none => (d.sampleN 1).bind (fun s => match s with
      | 1 :: r => some r
      | _ => Option.none)
  | .int n => d.sampleN n
  | .tensor r n => if r = 0 then d.sampleN n else Option.none

/-- `_log_prob(given)` of each multivariate class, at the level of shapes; the univariate ones are
expressions and are modelled entry by entry (`Verif/Model/Univariate.lean`).  The static shapes of the
`tf.ones` helpers of MatrixVariateNormalCholesky are taken as unknown.  (distributions/multivariate.py 169–189,
320–333, 435–443, 542–561, 665–677, 797–811, 936–952, 1124–1157) -/
def logProbMv (d : Dist) (given : P) : Option (List ℕ) :=
  match d with
  | mvn m c =>
    (diagPart c.rt).bind (fun dg => (dropLastAxis dg).bind (fun logz =>
      (P.bcast given m).bind (fun gm =>
        let y := gm.expandLast
        (P.meb c y).bind (fun (l, _) => (triSolve l.rt y.rt).bind (fun x =>
          (squeezeLast x).bind (fun x => (dropLastAxis x).bind (fun s => Shape.bcast logz s)))))))
  | multinomial l ne =>
    (P.meb given l).bind (fun (g, l') => (dropLastAxis l'.rt).bind (fun r =>
      (Shape.bcast l'.rt (r ++ [1])).bind (fun l'' =>
        (dropLastAxis g.rt).bind (fun ks =>
          (Shape.bcast (if ne.isSome then [] else ks) ks).bind (fun comb =>
            (Shape.bcast g.rt l'').bind (fun gl => (dropLastAxis gl).bind (fun s =>
              Shape.bcast comb s)))))))
  | unnormalizedMultinomial l =>
    (P.meb given l).bind (fun (g, l') => (dropLastAxis l'.rt).bind (fun r =>
      (Shape.bcast l'.rt (r ++ [1])).bind (fun l'' =>
        (Shape.bcast g.rt l'').bind (fun gl => dropLastAxis gl))))
  | onehot l =>
    (P.meb given l).bind (fun (g, l') =>
      if g.st.map List.length = some 2 ∨ l'.st.map List.length = some 2 then
        if g.rt = l'.rt then dropLastAxis l'.rt else none
      else (getShapeAt l.st l.rt (-1)).bind (fun k =>
        (reshapeRows k g.rt).bind (fun gf => (reshapeRows k l'.rt).bind (fun lf =>
          if gf = lf then (dropLastAxis lf).bind (fun p =>
            (dropLastAxis l'.rt).bind (fun tgt => reshapeTo tgt p)) else none))))
  | dirichlet a =>
    (P.meb given a).bind (fun (g, a') => (dropLastAxis a'.rt).bind (fun lb =>
      (Shape.bcast a'.rt g.rt).bind (fun p => (dropLastAxis p).bind (fun s => Shape.bcast lb s))))
  | expConcrete t l =>
    (Shape.bcast t.rt given.rt).bind (fun tg => (Shape.bcast l.rt tg).bind (fun temp =>
      (dropLastAxis temp).bind (fun r => (Shape.bcast t.rt r).bind (fun s => Shape.bcast s r))))
  | concrete t l =>
    (Shape.bcast t.rt given.rt).bind (fun tg => (Shape.bcast l.rt tg).bind (fun temp =>
      (Shape.bcast temp given.rt).bind (fun d1 => (dropLastAxis d1).bind (fun r1 =>
        (dropLastAxis temp).bind (fun r2 =>
          (Shape.bcast t.rt r1).bind (fun s => Shape.bcast s r2))))))
  | matrixNormal m u v =>
    (diagPart u.rt).bind (fun du => (dropLastAxis du).bind (fun zu =>
      (diagPart v.rt).bind (fun dv => (dropLastAxis dv).bind (fun zv =>
        (Shape.bcast zv zu).bind (fun logz =>
          (P.bcast given m).bind (fun y =>
            (splitLast2 y.rt).bind (fun (b, r, c) =>
              (P.meb u ⟨none, b ++ [r, 1]⟩).bind (fun (lu, _) =>
                (P.meb v ⟨none, b ++ [c, 1]⟩).bind (fun (lv, _) =>
                  (triSolve lu.rt y.rt).bind (fun x => (matTranspose x).bind (fun xt =>
                    (triSolve lv.rt xt).bind (fun w => (splitLast2 w).bind (fun (s, _, _) =>
                      Shape.bcast logz s)))))))))))))
  | _ => none

end Dist

end ZhuSuan.Shape
