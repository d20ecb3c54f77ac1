import Verif.Model.NeighState
import Verif.Lemmas.ListX
import Mathlib.Tactic.Ring
import Mathlib.Tactic.Tauto
import Mathlib.Tactic.Linarith
import Mathlib.Tactic.NormNum

/-!
# C156: what a neighbour estimator predicts is determined by its settings and the data of the last Fit

The specification looks only at the operations of the caller: the settings as last set, the contents of the two matrices at the time of the last `Fit`.
-/
set_option autoImplicit false

namespace Sk.NeighState

variable {K : Type} [Field K] [LinearOrder K] [IsStrictOrderedRing K]

/-- The settings as the caller last set them. -/
structure Settings (K : Type) where
  algorithm : String
  metric : String
  p : K
  leaf : ℤ

/-- Default settings, changed by the assignments of the program in order. -/
def asSet (ops : List (Op K)) : Settings K :=
  ops.foldl (fun S o => match o with
    | .setAlgorithm s => { S with algorithm := s }
    | .setMetric s => { S with metric := s }
    | .setP p => { S with p := p }
    | .setLeaf n => { S with leaf := n }
    | _ => S) ⟨"auto", "euclidean", 2, 0⟩

/-- Contents of the caller's feature matrix `a` after the program. -/
def xAfter (xs : ℕ → List (List K)) (ops : List (Op K)) (a : ℕ) : List (List K) :=
  ops.foldl (fun X o => match o with | .writeX a' X' => if a' = a then X' else X | _ => X) (xs a)

/-- Contents of the caller's target matrix `b` after the program. -/
def yAfter (ys : ℕ → List K) (ops : List (Op K)) (b : ℕ) : List K :=
  ops.foldl (fun Y o => match o with | .writeY b' Y' => if b' = b then Y' else Y | _ => Y) (ys b)

/-- The metrics whose name fixes the power. -/
def Named (metric : String) : Prop := metric = "manhattan" ∨ metric = "cityblock" ∨ metric = "euclidean"

/-- The power that the settings ask for. -/
def Settings.power (S : Settings K) : K :=
  if S.metric = "euclidean" then 2 else if S.metric = "manhattan" ∨ S.metric = "cityblock" then 1 else S.p

/-- The search that the settings ask for, on the rows `X`. -/
def asked (brute : Brute K) (treeS : TreeSearch K) (S : Settings K) (X : List (List K)) (k : ℕ) (q : List K) : Option (List (K × ℕ)) :=
  if useKDTree S.algorithm X = true then treeS S.power X (if S.leaf ≤ 0 then 30 else S.leaf) k q else brute S.power X k q

/-- A class of largest weight among the neighbours found. -/
def voted (it : List (K × K) → List (K × K)) (eps : K) (wt : Knn.Weights) (Y : List K) (r : List (K × ℕ)) : Option K :=
  (weighted eps wt Y r).map (fun ns => Knn.pick (it (Knn.votes ns)))

/-- The weighted mean of the targets of the neighbours found. -/
def averaged (eps : K) (wt : Knn.Weights) (Y : List K) (r : List (K × ℕ)) : Option K :=
  (weighted eps wt Y r).map (fun ns => (ns.map (fun e => e.2 * e.1)).sum / (ns.map Prod.snd).sum)

/-- No Fit of the program so far built a tree. -/
def NoTree (xs : ℕ → List (List K)) (ops : List (Op K)) : Prop :=
  ∀ u a b v, ops = u ++ Op.fit a b :: v → useKDTree (asSet u).algorithm (xAfter xs u a) = false

/-- No Fit of the program overwrote a power that has not been set again since. -/
def PowerKept (ops : List (Op K)) : Prop :=
  ∀ u a b v, ops = u ++ Op.fit a b :: v → ¬ Named (asSet u).metric ∨ ∃ p, Op.setP p ∈ v

/-- Only matrices are overwritten. -/
def Writes (ops : List (Op K)) : Prop := ∀ o ∈ ops, (∃ a X, o = Op.writeX a X) ∨ ∃ b Y, o = Op.writeY b Y

theorem asSet_snoc (ops : List (Op K)) (o : Op K) : asSet (ops ++ [o]) = (match o with
    | .setAlgorithm s => { asSet ops with algorithm := s }
    | .setMetric s => { asSet ops with metric := s }
    | .setP p => { asSet ops with p := p }
    | .setLeaf n => { asSet ops with leaf := n }
    | _ => asSet ops) := by
  unfold asSet
  rw [List.foldl_append]
  rfl

theorem run_snoc (c : Bool) (xs : ℕ → List (List K)) (ys : ℕ → List K) (ops : List (Op K)) (o : Op K) :
    run c xs ys (ops ++ [o]) = step c (run c xs ys ops) o := by
  unfold run
  rw [List.foldl_append]
  rfl

theorem run_append (c : Bool) (xs : ℕ → List (List K)) (ys : ℕ → List K) (ops more : List (Op K)) :
    run c xs ys (ops ++ more) = more.foldl (step c) (run c xs ys ops) := by
  unfold run
  rw [List.foldl_append]

theorem NoTree.left {xs : ℕ → List (List K)} {ops : List (Op K)} {o : Op K} (h : NoTree xs (ops ++ [o])) : NoTree xs ops := by
  intro u a b v he
  exact h u a b (v ++ [o]) (by rw [he]; simp)

theorem PowerKept.left {ops : List (Op K)} {o : Op K} (h : PowerKept (ops ++ [o])) (ho : ∀ p, o ≠ Op.setP p) : PowerKept ops := by
  intro u a b v he
  rcases h u a b (v ++ [o]) (by rw [he]; simp) with h | ⟨p, hp⟩
  · exact Or.inl h
  · rcases List.mem_append.mp hp with hp | hp
    · exact Or.inr ⟨p, hp⟩
    · exact absurd (List.mem_singleton.mp hp).symm (ho p)

/-- Everything the estimator holds that matters, after any program. -/
theorem state (c : Bool) (xs : ℕ → List (List K)) (ys : ℕ → List K) (ops : List (Op K)) :
    (∀ a, (run c xs ys ops).xs a = xAfter xs ops a) ∧ (∀ b, (run c xs ys ops).ys b = yAfter ys ops b) ∧
    (run c xs ys ops).est.algorithm = (asSet ops).algorithm ∧ (run c xs ys ops).est.metric = (asSet ops).metric ∧
    ((if (run c xs ys ops).est.leaf ≤ 0 then 30 else (run c xs ys ops).est.leaf) = if (asSet ops).leaf ≤ 0 then 30 else (asSet ops).leaf) ∧
    (PowerKept ops → (run c xs ys ops).est.p = (asSet ops).p) ∧ (NoTree xs ops → (run c xs ys ops).est.tree = none) ∧
    (run c xs ys ops).est.embedded = none := by
  induction ops using List.reverseRecOn with
  | nil => exact ⟨fun a => rfl, fun b => rfl, rfl, rfl, rfl, fun _ => rfl, fun _ => rfl, rfl⟩
  | append_singleton ops o ih =>
    obtain ⟨ix, iy, ia, im, il, ip, it, ie⟩ := ih
    rw [run_snoc, asSet_snoc]
    have hx : ∀ a, xAfter xs (ops ++ [o]) a = (match o with | .writeX a' X' => if a' = a then X' else xAfter xs ops a | _ => xAfter xs ops a) := by
      intro a; unfold xAfter; rw [List.foldl_append]; cases o <;> rfl
    have hy : ∀ b, yAfter ys (ops ++ [o]) b = (match o with | .writeY b' Y' => if b' = b then Y' else yAfter ys ops b | _ => yAfter ys ops b) := by
      intro b; unfold yAfter; rw [List.foldl_append]; cases o <;> rfl
    cases o with
    | setAlgorithm s =>
      refine ⟨fun a => by rw [hx]; exact ix a, fun b => by rw [hy]; exact iy b, rfl, im, il, fun h => ip (h.left (by simp)), fun h => it h.left, ie⟩
    | setMetric s =>
      refine ⟨fun a => by rw [hx]; exact ix a, fun b => by rw [hy]; exact iy b, ia, rfl, il, fun h => ip (h.left (by simp)), fun h => it h.left, ie⟩
    | setP p =>
      refine ⟨fun a => by rw [hx]; exact ix a, fun b => by rw [hy]; exact iy b, ia, im, il, fun h => rfl, fun h => it h.left, ie⟩
    | setLeaf n =>
      refine ⟨fun a => by rw [hx]; exact ix a, fun b => by rw [hy]; exact iy b, ia, im, rfl, fun h => ip (h.left (by simp)), fun h => it h.left, ie⟩
    | writeX a X =>
      refine ⟨fun a' => ?_, fun b => by rw [hy]; exact iy b, ia, im, il, fun h => ip (h.left (by simp)), fun h => it h.left, ie⟩
      rw [hx]
      show Function.update (run c xs ys ops).xs a X a' = if a = a' then X else xAfter xs ops a'
      by_cases h : a = a'
      · subst h; simp
      · rw [Function.update_of_ne (Ne.symm h), if_neg h]; exact ix a'
    | writeY b Y =>
      refine ⟨fun a => by rw [hx]; exact ix a, fun b' => ?_, ia, im, il, fun h => ip (h.left (by simp)), fun h => it h.left, ie⟩
      rw [hy]
      show Function.update (run c xs ys ops).ys b Y b' = if b = b' then Y else yAfter ys ops b'
      by_cases h : b = b'
      · subst h; simp
      · rw [Function.update_of_ne (Ne.symm h), if_neg h]; exact iy b'
    | fit a b =>
      have hn : ∀ (e : Est K) (X : List (List K)), (nnFit e X).algorithm = e.algorithm ∧ (nnFit e X).metric = e.metric ∧ (nnFit e X).p = fitP e.metric e.p ∧
          ((if (nnFit e X).leaf ≤ 0 then 30 else (nnFit e X).leaf) = if e.leaf ≤ 0 then 30 else e.leaf) ∧ (nnFit e X).embedded = e.embedded ∧
          (useKDTree e.algorithm X = false → (nnFit e X).tree = e.tree) := by
        intro e X
        by_cases h : useKDTree e.algorithm X = true
        · unfold nnFit
          simp only [h, if_true]
          refine ⟨trivial, trivial, trivial, ?_, trivial, by simp⟩
          by_cases hl : e.leaf ≤ 0
          · simp [hl]
          · simp [hl]
        · unfold nnFit
          simp only [h]
          exact ⟨rfl, rfl, rfl, rfl, rfl, fun _ => rfl⟩
      obtain ⟨n1, n2, n3, n4, n5, n6⟩ := hn (run c xs ys ops).est ((run c xs ys ops).xs a)
      refine ⟨fun a => by rw [hx]; exact ix a, fun b => by rw [hy]; exact iy b, n1.trans ia, n2.trans im, n4.trans il, fun h => ?_, fun h => ?_, n5.trans ie⟩
      · have h1 : ¬ Named (asSet ops).metric := by
          rcases h ops a b [] rfl with h | ⟨p, hp⟩
          · exact h
          · simp at hp
        refine n3.trans ?_
        rw [im, ip (h.left (by simp))]
        unfold fitP
        unfold Named at h1
        rw [if_neg (by tauto), if_neg (by tauto)]
      · refine (n6 ?_).trans (it h.left)
        rw [ia, ix]
        exact h ops a b [] rfl

theorem writes_est (c : Bool) (post : List (Op K)) (hp : Writes post) : ∀ w : World K, (post.foldl (step c) w).est = w.est := by
  induction post with
  | nil => intro w; rfl
  | cons o post ih =>
    intro w
    rw [List.foldl_cons, ih (fun o' h => hp o' (List.mem_cons_of_mem _ h))]
    rcases hp o (List.mem_cons_self) with ⟨a, X, rfl⟩ | ⟨b, Y, rfl⟩ <;> rfl

theorem writes_ys (c : Bool) (b : ℕ) (post : List (Op K)) (hp : Writes post) (hb : ∀ Y, Op.writeY b Y ∉ post) :
    ∀ w : World K, (post.foldl (step c) w).ys b = w.ys b := by
  induction post with
  | nil => intro w; rfl
  | cons o post ih =>
    intro w
    rw [List.foldl_cons, ih (fun o' h => hp o' (List.mem_cons_of_mem _ h)) (fun Y h => hb Y (List.mem_cons_of_mem _ h))]
    rcases hp o (List.mem_cons_self) with ⟨a, X, rfl⟩ | ⟨b', Y, rfl⟩
    · rfl
    · show Function.update w.ys b' Y b = w.ys b
      have : b ≠ b' := by rintro rfl; exact hb Y List.mem_cons_self
      rw [Function.update_of_ne this]

theorem fitP_power (S : Settings K) (p : K) (h : Named S.metric ∨ p = S.p) : fitP S.metric p = S.power := by
  unfold fitP Settings.power
  by_cases h2 : S.metric = "euclidean"
  · rw [if_pos h2, h2]; simp
  · rw [if_neg h2]
    by_cases h1 : S.metric = "manhattan" ∨ S.metric = "cityblock"
    · simp only [if_pos h1, if_neg h2]
    · simp only [if_neg h1, if_neg h2]
      rcases h with h | h
      · unfold Named at h; tauto
      · exact h

/-- The search run after the last Fit is the one that the settings ask for, on the rows as they were. -/
theorem near_asked (brute : Brute K) (treeS : TreeSearch K) (c : Bool) (xs : ℕ → List (List K)) (ys : ℕ → List K) (pre post : List (Op K)) (a b : ℕ)
    (ht : useKDTree (asSet pre).algorithm (xAfter xs pre a) = true ∨ NoTree xs pre) (hpw : Named (asSet pre).metric ∨ PowerKept pre) (hpost : Writes post)
    (k : ℕ) (q : List K) :
    near brute treeS (run c xs ys (pre ++ [Op.fit a b] ++ post)).est k q = asked brute treeS (asSet pre) (xAfter xs pre a) k q := by
  rw [run_append, writes_est c post hpost, run_snoc]
  obtain ⟨ix, iy, ia, im, il, ip, it, ie⟩ := state c xs ys pre
  have hp : fitP (run c xs ys pre).est.metric (run c xs ys pre).est.p = (asSet pre).power := by
    rw [im]; exact fitP_power _ _ (hpw.imp id ip)
  show near brute treeS { nnFit (run c xs ys pre).est ((run c xs ys pre).xs a) with y := _ } k q = _
  unfold asked nnFit near
  rw [ia, ix]
  by_cases hu : useKDTree (asSet pre).algorithm (xAfter xs pre a) = true
  · simp only [hu, if_true, hp, il]
  · have h0 : (run c xs ys pre).est.tree = none := it (ht.resolve_left hu)
    simp only [hu, h0, hp]
    rfl

/-- C156 for the regressor: provided the last Fit builds a tree or none before it did, and the power in use was not overwritten by an earlier Fit, predictions are those
of the search that the settings ask for, on the matrices as they were at the last Fit, whatever was done before and whatever is written to the matrices since.
Missing for the full claim: what `C156_stale_violated`, `C156_targets_violated`, `C156_power_violated`, `C156_clone_violated` and others refute. -/
theorem C156_regressor_partial (brute : Brute K) (treeS : TreeSearch K) (eps : K) (wt : Knn.Weights) (xs : ℕ → List (List K)) (ys : ℕ → List K)
    (pre post : List (Op K)) (a b : ℕ) (ht : useKDTree (asSet pre).algorithm (xAfter xs pre a) = true ∨ NoTree xs pre)
    (hpw : Named (asSet pre).metric ∨ PowerKept pre) (hpost : Writes post) (k : ℕ) (q : List K) :
    regress brute treeS eps wt (run true xs ys (pre ++ [Op.fit a b] ++ post)) k q =
      (asked brute treeS (asSet pre) (xAfter xs pre a) k q).bind (averaged eps wt (yAfter ys pre b)) := by
  have hy : targets (run true xs ys (pre ++ [Op.fit a b] ++ post)) = yAfter ys pre b := by
    unfold targets
    rw [run_append, writes_est true post hpost, run_snoc]
    show (run true xs ys pre).ys b = _
    exact (state true xs ys pre).2.1 b
  unfold regress
  rw [near_asked brute treeS true xs ys pre post a b ht hpw hpost k q, hy]
  unfold averaged
  cases asked brute treeS (asSet pre) (xAfter xs pre a) k q with
  | none => rfl
  | some r => cases h : weighted eps wt (yAfter ys pre b) r <;> simp [h]

/-- C156 for the classifier: the same, if moreover the caller does not overwrite the targets after the last Fit.
Missing for the full claim: what `C156_stale_violated`, `C156_targets_violated`, `C156_power_violated`, `C156_clone_violated` and others refute. -/
theorem C156_classifier_partial (brute : Brute K) (treeS : TreeSearch K) (it : List (K × K) → List (K × K)) (eps : K) (wt : Knn.Weights)
    (xs : ℕ → List (List K)) (ys : ℕ → List K) (pre post : List (Op K)) (a b : ℕ) (ht : useKDTree (asSet pre).algorithm (xAfter xs pre a) = true ∨ NoTree xs pre)
    (hpw : Named (asSet pre).metric ∨ PowerKept pre) (hpost : Writes post) (hb : ∀ Y, Op.writeY b Y ∉ post) (k : ℕ) (q : List K) :
    classify brute treeS it eps wt (run false xs ys (pre ++ [Op.fit a b] ++ post)) k q =
      (asked brute treeS (asSet pre) (xAfter xs pre a) k q).bind (voted it eps wt (yAfter ys pre b)) := by
  have hy : targets (run false xs ys (pre ++ [Op.fit a b] ++ post)) = yAfter ys pre b := by
    unfold targets
    rw [run_append, writes_est false post hpost]
    have : (run false xs ys (pre ++ [Op.fit a b])).est.y = .caller b := by rw [run_snoc]; rfl
    rw [this]
    simp only
    rw [writes_ys false b post hpost hb, run_snoc]
    exact (state false xs ys pre).2.1 b
  unfold classify
  rw [near_asked brute treeS false xs ys pre post a b ht hpw hpost k q, hy]
  unfold voted
  cases asked brute treeS (asSet pre) (xAfter xs pre a) k q with
  | none => rfl
  | some r => cases h : weighted eps wt (yAfter ys pre b) r <;> simp [h]

/-- With brute force search as modelled in `Verif/Model/Neighbors.lean` and no tree asked for, the prediction is that of C44. -/
theorem C156_classifier_brute {sort : List (K × ℕ) → List (K × ℕ)} (dist : K → List K → List K → K) (treeS : TreeSearch K) (it : List (K × K) → List (K × K)) (eps : K)
    (wt : Knn.Weights) (X : List (List K)) (Y : List K) (S : Settings K) (h : useKDTree S.algorithm X = false) (k : ℕ) (q : List K) :
    (asked (fun p X k q => Neigh.kNeighbors sort (dist p) X k q) treeS S X k q).bind (voted it eps wt Y) =
      Knn.classify sort it (dist S.power) eps wt X Y k q := by
  unfold asked Knn.classify Knn.neighbourVotes voted weighted
  rw [if_neg (by simp [h])]
  show (Neigh.kNeighbors sort (dist S.power) X k q).bind _ = _
  cases Neigh.kNeighbors sort (dist S.power) X k q <;> rfl

/-- With brute force search as modelled in `Verif/Model/Neighbors.lean` and no tree asked for, the prediction is that of C79. -/
theorem C156_regressor_brute {sort : List (K × ℕ) → List (K × ℕ)} (dist : K → List K → List K → K) (treeS : TreeSearch K) (eps : K)
    (wt : Knn.Weights) (X : List (List K)) (Y : List K) (S : Settings K) (h : useKDTree S.algorithm X = false) (k : ℕ) (q : List K) :
    (asked (fun p X k q => Neigh.kNeighbors sort (dist p) X k q) treeS S X k q).bind (averaged eps wt Y) =
      Knn.regress sort (dist S.power) eps wt X Y k q := by
  unfold asked Knn.regress Knn.neighbourVotes averaged weighted
  rw [if_neg (by simp [h])]
  show (Neigh.kNeighbors sort (dist S.power) X k q).bind _ = _
  cases Neigh.kNeighbors sort (dist S.power) X k q <;> rfl

/-- A search for one neighbour returns the row equal to the query, if there is exactly one. -/
def Exact (search : List (List K) → List K → Option (List (K × ℕ))) : Prop :=
  ∀ X q i, X[i]? = some q → (∀ j, X[j]? = some q → j = i) → ∃ d, search X q = some [(d, i)]

theorem averaged_one (eps : K) (Y : List K) (d : K) (i : ℕ) : averaged eps .uniform Y [(d, i)] = Y[i]? := by
  unfold averaged weighted
  simp only [List.mapM_cons, List.mapM_nil, Option.pure_def, Option.bind_eq_bind, Option.bind_some]
  cases Y[i]? with
  | none => rfl
  | some y => simp [Knn.weightOf]

theorem voted_one (eps : K) (Y : List K) (d : K) (i : ℕ) : voted id eps .uniform Y [(d, i)] = Y[i]? := by
  unfold voted weighted
  simp only [List.mapM_cons, List.mapM_nil, Option.pure_def, Option.bind_eq_bind, Option.bind_some]
  cases Y[i]? with
  | none => rfl
  | some y => simp [Knn.weightOf, Knn.votes, Knn.addVote, Knn.pick]

/-- Refitting does not forget: once a Fit built a tree, a later Fit on data for which the settings ask for brute force leaves the old tree in place, and queries go to
it.  For a query equal to row `i` of the old rows and row `j` of the new ones the regressor answers the new target of row `i`; a new estimator answers that of row `j`. -/
theorem C156_stale_violated (brute : Brute K) (treeS : TreeSearch K) (eps : K) (xs : ℕ → List (List K)) (ys : ℕ → List K)
    (hb : Exact (fun X q => brute 2 X 1 q)) (htr : Exact (fun X q => treeS 2 X 30 1 q))
    (h0 : useKDTree "auto" (xs 0) = true) (h1 : useKDTree "auto" (xs 1) = false) (q : List K) (i j : ℕ)
    (hi : (xs 0)[i]? = some q) (hi' : ∀ l, (xs 0)[l]? = some q → l = i) (hj : (xs 1)[j]? = some q) (hj' : ∀ l, (xs 1)[l]? = some q → l = j) :
    regress brute treeS eps .uniform (run true xs ys [.fit 0 0, .fit 1 1]) 1 q = (ys 1)[i]? ∧
    regress brute treeS eps .uniform (run true xs ys [.fit 1 1]) 1 q = (ys 1)[j]? := by
  obtain ⟨d, hd⟩ := htr _ _ _ hi hi'
  obtain ⟨d', hd'⟩ := hb _ _ _ hj hj'
  simp only at hd hd'
  constructor
  · have hn : near brute treeS (run true xs ys [.fit 0 0, .fit 1 1]).est 1 q = some [(d, i)] := by
      simp [run, step, near, nnFit, new, h0, h1, fitP, hd]
    have ht : targets (run true xs ys [.fit 0 0, .fit 1 1]) = ys 1 := rfl
    have := averaged_one eps (ys 1) d i
    unfold averaged at this
    unfold regress
    rw [hn, ht, ← this]
    cases h : weighted eps .uniform (ys 1) [(d, i)] <;> simp [h]
  · have hn : near brute treeS (run true xs ys [.fit 1 1]).est 1 q = some [(d', j)] := by
      simp [run, step, near, nnFit, new, h1, fitP, hd']
    have ht : targets (run true xs ys [.fit 1 1]) = ys 1 := rfl
    have := averaged_one eps (ys 1) d' j
    unfold averaged at this
    unfold regress
    rw [hn, ht, ← this]
    cases h : weighted eps .uniform (ys 1) [(d', j)] <;> simp [h]

/-- The classifier keeps the caller's targets: overwriting them after Fit changes what it predicts for the training rows. -/
theorem C156_targets_violated (brute : Brute K) (treeS : TreeSearch K) (eps : K) (xs : ℕ → List (List K)) (ys : ℕ → List K) (hb : Exact (fun X q => brute 2 X 1 q))
    (h0 : useKDTree "auto" (xs 0) = false) (q : List K) (i : ℕ) (hi : (xs 0)[i]? = some q) (hi' : ∀ l, (xs 0)[l]? = some q → l = i) (Y : List K) :
    classify brute treeS id eps .uniform (run false xs ys [.fit 0 0]) 1 q = (ys 0)[i]? ∧
    classify brute treeS id eps .uniform (run false xs ys [.fit 0 0, .writeY 0 Y]) 1 q = Y[i]? := by
  obtain ⟨d, hd⟩ := hb _ _ _ hi hi'
  simp only at hd
  have key : ∀ (w : World K) (Z : List K), near brute treeS w.est 1 q = some [(d, i)] → targets w = Z →
      classify brute treeS id eps .uniform w 1 q = Z[i]? := by
    intro w Z hn ht
    have := voted_one eps Z d i
    unfold voted at this
    unfold classify
    rw [hn, ht, ← this]
    cases h : weighted eps .uniform Z [(d, i)] <;> simp [h]
  constructor
  · exact key _ _ (by simp [run, step, near, nnFit, new, h0, fitP, hd]) rfl
  · exact key _ _ (by simp [run, step, near, nnFit, new, h0, fitP, hd]) (by simp [run, step, targets])

/-- Fit overwrites the power: set to `p` by the caller, it is lost when the estimator is fitted with the metric `euclidean`, and a later Fit with the metric
`minkowski` searches with power 2; had the first Fit not been made, it would search with `p`. -/
theorem C156_power_violated (brute : Brute K) (treeS : TreeSearch K) (xs : ℕ → List (List K)) (ys : ℕ → List K) (h0 : useKDTree "auto" (xs 0) = false) (p : K) (k : ℕ) (q : List K)
    (c : Bool) :
    near brute treeS (run c xs ys [.setP p, .fit 0 0, .setMetric "minkowski", .fit 0 0]).est k q = brute 2 (xs 0) k q ∧
    near brute treeS (run c xs ys [.setP p, .setMetric "minkowski", .fit 0 0]).est k q = brute p (xs 0) k q := by
  constructor <;> simp [run, step, near, nnFit, new, h0, fitP]

theorem hasTree_iff (s : List Char) : hasTree s = true ↔ ['t', 'r', 'e', 'e'] <:+: s := by
  induction s with
  | nil => simp [hasTree]
  | cons c s ih =>
    rw [hasTree, Bool.or_eq_true, ih, List.infix_cons_iff, List.isPrefixOf_iff_prefix]

/-- When a tree is asked for: if the algorithm has `tree` in its name, in upper or lower case, or is `auto` and the matrix has more than 1000 cells. -/
theorem C156_choice (algorithm : String) (X : List (List K)) (n : ℕ) (hn : ∀ r ∈ X, r.length = n) :
    useKDTree algorithm X = true ↔ ['t', 'r', 'e', 'e'] <:+: algorithm.toLower.toList ∨ (algorithm = "auto" ∧ 1000 < X.flatten.length) := by
  have hc : X.length * (X.headD []).length = X.flatten.length := by
    rw [List.length_flatten, List.map_congr_left (g := fun _ => n) hn]
    cases X with
    | nil => simp
    | cons r X => simp [hn r List.mem_cons_self, Nat.add_mul, Nat.add_comm]
  rw [useKDTree, Bool.or_eq_true, hasTree_iff, Bool.and_eq_true, beq_iff_eq, decide_eq_true_iff, hc]

example : ∀ r ∈ [[(1 : ℚ), 2], [3, 4]], r.length = 2 := by simp

/-- The power read at prediction time: after Fit with the metric `minkowski`, a new value of `P` takes effect at once if Fit built a tree, and not before the next Fit if it did not. -/
theorem C156_setP_violated (brute : Brute K) (treeS : TreeSearch K) (xs : ℕ → List (List K)) (ys : ℕ → List K) (p p' : K) (k : ℕ) (q : List K) (c : Bool) :
    (useKDTree "auto" (xs 0) = true → near brute treeS (run c xs ys [.setP p, .setMetric "minkowski", .fit 0 0, .setP p']).est k q = treeS p' (xs 0) 30 k q) ∧
    (useKDTree "auto" (xs 0) = false → near brute treeS (run c xs ys [.setP p, .setMetric "minkowski", .fit 0 0, .setP p']).est k q = brute p (xs 0) k q) := by
  constructor <;> intro h0 <;> simp [run, step, near, nnFit, new, h0, fitP]

/-- Whatever is done with a classifier, cloning it or asking whether it is a classifier panics: so does cross-validating it. -/
theorem C156_clone_violated (c : Bool) (xs : ℕ → List (List K)) (ys : ℕ → List K) (ops : List (Op K)) : promoted (run c xs ys ops).est = none :=
  (state c xs ys ops).2.2.2.2.2.2.2

/-- `NearestCentroid.Predict` without a destination panics, whatever was done before; with one it gives the predictions. -/
theorem C156_centroid_nil_violated {A : Type} (c : Bool) (xs : ℕ → List (List K)) (ys : ℕ → List K) (ops : List (Op K)) (r : A) :
    centroidInto (run c xs ys ops).est true (some r) = none ∧ centroidInto (run c xs ys ops).est false (some r) = some r := by
  unfold centroidInto
  rw [C156_clone_violated]
  exact ⟨rfl, rfl⟩

section Examples

/-- Exact matching by the first equal row, a search meeting the hypotheses. -/
private def firstEq (X : List (List ℚ)) (q : List ℚ) : Option (List (ℚ × ℕ)) :=
  if X.idxOf q < X.length then some [(0, X.idxOf q)] else none

private theorem firstEq_exact : Exact firstEq := by
  intro X q i hi hu
  obtain ⟨hl, he⟩ := List.getElem?_eq_some_iff.mp hi
  have hm : q ∈ X := he ▸ List.getElem_mem hl
  have hlt := List.idxOf_lt_length_iff.mpr hm
  refine ⟨0, ?_⟩
  unfold firstEq
  rw [if_pos hlt, hu (X.idxOf q) (by rw [List.getElem?_eq_getElem hlt, List.getElem_idxOf])]

private def B : Brute ℚ := fun _ X _ q => firstEq X q
private def T : TreeSearch ℚ := fun _ X _ _ q => firstEq X q

private def big : List (List ℚ) := [5] :: [7] :: List.replicate 999 [0]
private def Xs : ℕ → List (List ℚ) := fun a => if a = 0 then big else [[7], [5]]
private def Ys : ℕ → List ℚ := fun b => if b = 0 then List.replicate 1001 3 else [10, 20]

example : regress B T 1 .uniform (run true Xs Ys [.fit 0 0, .fit 1 1]) 1 [5] = some 10 ∧ regress B T 1 .uniform (run true Xs Ys [.fit 1 1]) 1 [5] = some 20 := by
  have e : (Ys 1) = [10, 20] := rfl
  have h := C156_stale_violated B T 1 Xs Ys firstEq_exact firstEq_exact (by decide +kernel) (by decide +kernel) [5] 0 1 rfl
    (by
      intro l hl
      match l with
      | 0 => rfl
      | 1 => exact absurd hl (by decide +kernel)
      | l + 2 =>
        have hl' : (List.replicate 999 ([0] : List ℚ))[l]? = some [5] := hl
        rw [List.getElem?_replicate] at hl'
        split at hl'
        · exact absurd hl' (by decide +kernel)
        · exact absurd hl' (by simp))
    rfl
    (by
      intro l hl
      match l with
      | 0 => exact absurd hl (by decide +kernel)
      | 1 => rfl
      | l + 2 => exact absurd hl (by simp [Xs]))
  rw [e] at h
  exact h

example (Y : List ℚ) : regress B T 1 .uniform (run true Xs Ys ([Op.setMetric "l3", .setP 3, .fit 1 0] ++ [.fit 1 1] ++ [.writeY 1 Y])) 1 [5] = some 20 := by
  rw [C156_regressor_partial B T 1 .uniform Xs Ys [Op.setMetric "l3", .setP 3, .fit 1 0] [.writeY 1 Y] 1 1]
  · decide +kernel
  · right
    intro u a b v h
    have hu : u = [Op.setMetric "l3", .setP 3] ∧ a = 1 := by
      match u, h with
      | [], h => simp at h
      | [o], h => simp at h
      | [o, o'], h => simp at h; exact ⟨by rw [h.1, h.2.1], h.2.2.1.1.symm⟩
      | o :: o' :: o'' :: u, h => simp at h
    rw [hu.1, hu.2]
    decide +kernel
  · right
    intro u a b v h
    left
    have hu : u = [Op.setMetric "l3", .setP 3] := by
      match u, h with
      | [], h => simp at h
      | [o], h => simp at h
      | [o, o'], h => simp at h; rw [h.1, h.2.1]
      | o :: o' :: o'' :: u, h => simp at h
    rw [hu]
    unfold Named
    decide +kernel
  · intro o ho
    exact Or.inr ⟨1, Y, List.mem_singleton.mp ho⟩

example : classify B T id 1 .uniform (run false Xs Ys ([] ++ [.fit 1 1] ++ [.writeX 1 []])) 1 [5] = some 20 := by
  rw [C156_classifier_partial B T id 1 .uniform Xs Ys [] [.writeX 1 []] 1 1 (Or.inr (by intro u a b v h; simp at h)) (Or.inl (by unfold Named; decide +kernel))
    (by intro o ho; exact Or.inl ⟨1, [], List.mem_singleton.mp ho⟩) (by intro Y h; simp at h)]
  decide +kernel

example : classify B T id 1 .uniform (run false (fun _ => [[7], [5]]) (fun _ => [10, 20]) [.fit 0 0, .writeY 0 [10, 99]]) 1 [5] = some 99 :=
  (C156_targets_violated B T 1 (fun _ => [[7], [5]]) (fun _ => [10, 20]) firstEq_exact (by decide +kernel) [5] 1 rfl
    (by
      intro l hl
      match l with
      | 0 => exact absurd hl (by decide +kernel)
      | 1 => rfl
      | l + 2 => exact absurd hl (by simp)) [10, 99]).2

example : useKDTree (K := ℚ) "KD_Tree" [[1]] = true ∧ useKDTree (K := ℚ) "brute" big = false := by decide +kernel

end Examples

end Sk.NeighState
