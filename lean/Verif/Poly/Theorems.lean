import Verif.Poly.Model
import Mathlib.Tactic.Ring
import Mathlib.Tactic.Linarith
import Mathlib.Tactic.NormNum
import Mathlib.Tactic.LinearCombination
import Mathlib.Tactic.FieldSimp
import Mathlib.Algebra.Order.Field.Basic
import Mathlib.Algebra.Order.Field.Rat

/-!
# Property theorems on power, Horner and Estrin generation: C14, C15, C16
-/

namespace Verif.Poly

variable {K : Type} [CommRing K]

/-! ## C14 -/

/-- Every entry of the map for exponent `n` has the value `v^n` under every assignment. -/
def MapOK (v : Expr K) (m : PMap K) : Prop := ∀ n p e, m (n, p) = some e → ∀ ρ, e.eval ρ = v.eval ρ ^ n

theorem MapOK.set {v : Expr K} {m : PMap K} (h : MapOK v m) (n p : ℕ) (e : Expr K) (he : ∀ ρ, e.eval ρ = v.eval ρ ^ n) :
    MapOK v (m.set (n, p) e) := by
  intro n' p' e' h' ρ
  unfold PMap.set at h'
  by_cases hk : (n', p') = (n, p)
  · rw [if_pos hk] at h'
    simp only [Prod.mk.injEq] at hk
    simp only [Option.some.injEq] at h'
    rw [← h', he, hk.1]
  · rw [if_neg hk] at h'
    exact h n' p' e' h' ρ

/-- C14: with a map that holds powers of the same node only, the generated graph is the requested power and the map keeps that
property. -/
theorem C14_power_partial (v : Expr K) (prec : ℕ) : ∀ (n : ℕ), 1 ≤ n → ∀ m : PMap K, MapOK v m →
    ∃ e m', genPower v n m prec = .ok (e, m') ∧ (∀ ρ, e.eval ρ = v.eval ρ ^ n) ∧ MapOK v m' := by
  intro n
  induction n using Nat.strong_induction_on with
  | _ n ih =>
    intro hn m hm
    rw [genPower]
    cases hk : m (n, prec) with
    | some e => exact ⟨e, m, rfl, hm n prec e hk, hm⟩
    | none =>
      dsimp only
      by_cases h1 : n = 1
      · subst h1
        rw [if_pos rfl]
        exact ⟨v, _, rfl, fun ρ => by ring, hm.set 1 prec v fun ρ => by ring⟩
      rw [if_neg h1, if_neg (show ¬ n = 0 by omega)]
      by_cases h2 : n % 2 = 1
      · rw [if_pos h2]
        obtain ⟨e, m', h3, h4, h5⟩ := ih (n - 1) (by omega) (by omega) m hm
        have hv : ∀ ρ, (Expr.mul v e).eval ρ = v.eval ρ ^ n := by
          intro ρ
          obtain ⟨k, rfl⟩ : ∃ k, n = k + 1 := ⟨n - 1, by omega⟩
          simp only [Nat.add_sub_cancel] at h4
          rw [Expr.eval, h4, pow_succ]; ring
        rw [h3]
        exact ⟨_, _, rfl, hv, h5.set n prec _ hv⟩
      · rw [if_neg h2]
        obtain ⟨e, m', h3, h4, h5⟩ := ih (n / 2) (by omega) (by omega) m hm
        have hv : ∀ ρ, (Expr.mul e e).eval ρ = v.eval ρ ^ n := by
          intro ρ
          rw [Expr.eval, h4, ← pow_add]
          congr 1; omega
        rw [h3]
        exact ⟨_, _, rfl, hv, h5.set n prec _ hv⟩

/-- A history of requests on one node through one map; the results in order. -/
def runPowers (v : Expr K) : List (ℕ × ℕ) → PMap K → Except Err (List (Expr K) × PMap K)
  | [], m => .ok ([], m)
  | (n, prec) :: rest, m =>
    match genPower v n m prec with
    | .error e => .error e
    | .ok (e, m1) =>
      match runPowers v rest m1 with
      | .error e => .error e
      | .ok (es, m2) => .ok (e :: es, m2)

/-- C14: any history of requests on one node through one map, starting from an empty map, gives the requested powers. -/
theorem C14_history_partial (v : Expr K) (calls : List (ℕ × ℕ)) (hc : ∀ c ∈ calls, 1 ≤ c.1) :
    ∃ es m', runPowers v calls (fun _ => none) = .ok (es, m') ∧
      ∀ ρ, es.map (Expr.eval ρ) = calls.map fun c => v.eval ρ ^ c.1 := by
  suffices h : ∀ (calls : List (ℕ × ℕ)) (m : PMap K), (∀ c ∈ calls, 1 ≤ c.1) → MapOK v m →
      ∃ es m', runPowers v calls m = .ok (es, m') ∧ ∀ ρ, es.map (Expr.eval ρ) = calls.map fun c => v.eval ρ ^ c.1 from
    h calls _ hc (fun n p e h => by simp at h)
  intro calls
  induction calls with
  | nil => intro m _ _; exact ⟨[], m, rfl, fun ρ => rfl⟩
  | cons c rest ih =>
    intro m hc hm
    obtain ⟨n, prec⟩ := c
    obtain ⟨e, m1, h1, h2, h3⟩ := C14_power_partial v prec n (hc (n, prec) (by simp)) m hm
    obtain ⟨es, m2, h4, h5⟩ := ih m1 (fun c h => hc c (by simp [h])) h3
    refine ⟨e :: es, m2, ?_, fun ρ => by simp [h2 ρ, h5 ρ]⟩
    rw [runPowers, h1]; dsimp only; rw [h4]

example : ∃ m', genPower (K := ℤ) (.var 0) 5 (fun _ => none) 0 =
    .ok (.mul (.var 0) (.mul (.mul (.var 0) (.var 0)) (.mul (.var 0) (.var 0))), m') := by
  simp [genPower]

/-- After a request the map holds the result. -/
theorem genPower_memo (v : Expr K) (prec n : ℕ) (hn : 1 ≤ n) (m : PMap K) (hm : MapOK v m) (e : Expr K) (m' : PMap K)
    (h : genPower v n m prec = .ok (e, m')) : m' (n, prec) = some e := by
  rw [genPower] at h
  cases hk : m (n, prec) with
  | some e' =>
    rw [hk] at h; simp only [Except.ok.injEq, Prod.mk.injEq] at h
    rw [← h.2, ← h.1]; exact hk
  | none =>
    rw [hk] at h
    dsimp only at h
    by_cases h1 : n = 1
    · subst h1
      rw [if_pos rfl] at h
      simp only [Except.ok.injEq, Prod.mk.injEq] at h
      rw [← h.2, ← h.1]; simp [PMap.set]
    rw [if_neg h1, if_neg (show ¬ n = 0 by omega)] at h
    by_cases h2 : n % 2 = 1
    · rw [if_pos h2] at h
      obtain ⟨e1, m1, h3, _, _⟩ := C14_power_partial v prec (n - 1) (by omega) m hm
      rw [h3] at h
      simp only [Except.ok.injEq, Prod.mk.injEq] at h
      rw [← h.2, ← h.1]; simp [PMap.set]
    · rw [if_neg h2] at h
      obtain ⟨e1, m1, h3, _, _⟩ := C14_power_partial v prec (n / 2) (by omega) m hm
      rw [h3] at h
      simp only [Except.ok.injEq, Prod.mk.injEq] at h
      rw [← h.2, ← h.1]; simp [PMap.set]

/-- C14 fails when one map (in particular the default argument, a dictionary shared by all calls) serves two nodes: for every
power and all nodes `v`, `w`, the request on `w` returns the power of `v`. -/
theorem C14_shared_map_wrong (v w : Expr K) (n prec : ℕ) (hn : 1 ≤ n) :
    ∃ e m1, genPower v n (fun _ => none) prec = .ok (e, m1) ∧ (∀ ρ, e.eval ρ = v.eval ρ ^ n) ∧
      genPower w n m1 prec = .ok (e, m1) := by
  have h0 : MapOK v (fun _ => none) := fun n p e h => by simp at h
  obtain ⟨e, m1, h1, h2, _⟩ := C14_power_partial v prec n hn _ h0
  refine ⟨e, m1, h1, h2, ?_⟩
  rw [genPower, genPower_memo v prec n hn _ h0 e m1 h1]

example : ∃ (e : Expr ℤ) (m1 : PMap ℤ) (ρ : ℕ → ℤ), genPower (.var 0) 2 (fun _ => none) 0 = .ok (e, m1) ∧
    genPower (.var 1) 2 m1 0 = .ok (e, m1) ∧ e.eval ρ ≠ (ρ 1) ^ 2 := by
  obtain ⟨e, m1, h1, h2, h3⟩ := C14_shared_map_wrong (K := ℤ) (.var 0) (.var 1) 2 0 (by norm_num)
  exact ⟨e, m1, fun n => n, h1, h3, by rw [h2]; simp [Expr.eval]⟩

/-- C14: exponent 0 does not terminate. -/
theorem C14_zero_diverges (v : Expr K) (prec : ℕ) (m : PMap K) (h : m (0, prec) = none) :
    genPower v 0 m prec = .error .recursion := by
  rw [genPower, h]; rfl

/-- C14, the `**` operator: powers of two are right once the recursion limit allows their logarithm. -/
theorem C14_pow_operator_partial (v : Expr ℚ) : ∀ (k depth : ℕ), k ≤ depth →
    ∃ e, pow v depth (2 ^ k) = .ok e ∧ ∀ ρ, e.eval ρ = v.eval ρ ^ (2 ^ k) := by
  intro k
  induction k with
  | zero =>
    intro d _
    exact ⟨v, by rw [Verif.Poly.pow.eq_def]; simp, fun ρ => by simp⟩
  | succ k ih =>
    intro d hd
    obtain ⟨d, rfl⟩ : ∃ d', d = d' + 1 := ⟨d - 1, by omega⟩
    obtain ⟨e, h1, h2⟩ := ih d (by omega)
    have hne : ((2 : ℚ) ^ (k + 1)) ≠ 0 := by positivity
    have hne1 : ((2 : ℚ) ^ (k + 1)) ≠ 1 := by
      have : (1 : ℚ) < 2 ^ (k + 1) := one_lt_pow₀ (by norm_num) (by omega)
      exact ne_of_gt this
    have hcast : ((2 : ℚ) ^ (k + 1)) = ((2 ^ (k + 1) : ℤ) : ℚ) := by push_cast; ring
    have hodd : ¬ (((2 : ℚ) ^ (k + 1)).den = 1 ∧ ((2 : ℚ) ^ (k + 1)).num % 2 = 1) := by
      rw [hcast]
      rintro ⟨_, h⟩
      rw [Rat.num_intCast, pow_succ] at h
      omega
    refine ⟨.mul e e, ?_, fun ρ => ?_⟩
    · rw [Verif.Poly.pow, if_neg hne, if_neg hne1]
      have : (2 : ℚ) ^ (k + 1) / 2 = 2 ^ k := by rw [pow_succ]; field_simp
      rw [this, h1]
      dsimp only
      rw [if_neg hodd]
    · rw [Expr.eval, h2, ← pow_add, pow_succ]; congr 1; ring

/-- C14 fails for the `**` operator on every other exponent above 2: no recursion limit is enough. -/
theorem C14_pow_operator_diverges (v : Expr ℚ) (n : ℕ) (h0 : n ≠ 0) (h2 : ∀ k : ℕ, n ≠ 2 ^ k) (depth : ℕ) :
    pow v depth n = .error .recursion := by
  suffices h : ∀ (depth : ℕ) (q : ℚ), q ≠ 0 → (∀ k : ℕ, q ≠ 2 ^ k) → pow v depth q = .error .recursion by
    refine h depth n (by exact_mod_cast h0) fun k hk => h2 k (by exact_mod_cast hk)
  intro depth
  induction depth with
  | zero =>
    intro q hq hk
    rw [Verif.Poly.pow.eq_def, if_neg hq, if_neg (by simpa using hk 0)]
  | succ d ih =>
    intro q hq hk
    rw [Verif.Poly.pow.eq_def, if_neg hq, if_neg (by simpa using hk 0)]
    dsimp only
    rw [ih (q / 2) (by simpa using hq) (fun k h => hk (k + 1) (by rw [pow_succ, ← h]; ring))]

example : ∀ k : ℕ, (3 : ℕ) ≠ 2 ^ k := by
  intro k h
  rcases k with _ | k
  · omega
  · rw [pow_succ] at h; omega

/-! ## C15 -/

/-- Value of a list of (index, coefficient node). -/
def termsValue (ρ : ℕ → K) (x : K) (l : List (ℕ × Expr K)) : K := (l.map fun p => p.2.eval ρ * x ^ p.1).sum

theorem hornerLoop_spec (v : Expr K) (prec : ℕ) : ∀ (l : List (ℕ × Expr K)) (cur : ℕ) (scheme : Expr K) (m : PMap K),
    MapOK v m → (l.map Prod.fst).Pairwise (fun a b => b < a) → (∀ q ∈ l, q.1 < cur) →
    ∃ cur' s' m', hornerLoop v prec l cur scheme m = .ok (cur', s', m') ∧ MapOK v m' ∧
      (∀ ρ, s'.eval ρ * v.eval ρ ^ cur' = scheme.eval ρ * v.eval ρ ^ cur + termsValue ρ (v.eval ρ) l) ∧
      (∀ L, L < cur → (∀ q ∈ l, L < q.1) → L < cur') := by
  intro l
  induction l with
  | nil =>
    intro cur s m hm _ _
    exact ⟨cur, s, m, rfl, hm, fun ρ => by simp [termsValue], fun L h _ => h⟩
  | cons p rest ih =>
    intro cur s m hm hp hc
    obtain ⟨index, coeff⟩ := p
    have hlt : index < cur := hc (index, coeff) (by simp)
    obtain ⟨pw, m1, h1, h2, h3⟩ := C14_power_partial v prec (cur - index) (by omega) m hm
    simp only [List.map_cons, List.pairwise_cons] at hp
    obtain ⟨cur', s', m', h4, h5, h6, h7⟩ := ih index (.add coeff (.mul pw s)) m1 h3 hp.2
      (fun q hq => hp.1 q.1 (List.mem_map_of_mem hq))
    refine ⟨cur', s', m', by rw [hornerLoop, h1]; exact h4, h5, fun ρ => ?_, fun L hL hall => ?_⟩
    · rw [h6]
      simp only [Expr.eval, h2, termsValue, List.map_cons, List.sum_cons]
      have : v.eval ρ ^ cur = v.eval ρ ^ (cur - index) * v.eval ρ ^ index := by rw [← pow_add]; congr 1; omega
      rw [this]; ring
    · exact h7 L (hall (index, coeff) (by simp)) (fun q hq => hall q (by simp [hq]))

theorem isCst_eval [DecidableEq K] {e : Expr K} {c : K} (h : isCst e c = true) (ρ : ℕ → K) : e.eval ρ = c := by
  cases e <;> simp_all [isCst, Expr.eval]

theorem hornerLast_spec [DecidableEq K] (v : Expr K) (prec index : ℕ) (coeff : Expr K) (cur : ℕ) (scheme : Expr K) (m : PMap K)
    (hm : MapOK v m) (hlt : index < cur) :
    ∃ e m', hornerLast v prec index coeff cur scheme m = .ok (e, m') ∧ MapOK v m' ∧
      ∀ ρ, e.eval ρ = scheme.eval ρ * v.eval ρ ^ cur + coeff.eval ρ * v.eval ρ ^ index := by
  unfold hornerLast
  by_cases hc : ((isCst coeff 1 || isCst coeff (-1)) && decide (index ≤ 1)) = true
  · rw [if_pos hc]
    obtain ⟨pw, m1, h1, h2, h3⟩ := C14_power_partial v prec cur (by omega) m hm
    simp only [h1]
    simp only [Bool.and_eq_true, Bool.or_eq_true, decide_eq_true_eq] at hc
    by_cases h0 : index = 0
    · rw [if_pos h0]
      exact ⟨_, _, rfl, h3, fun ρ => by simp only [Expr.eval, h2, h0]; ring⟩
    · rw [if_neg h0]
      have hi : index = 1 := by omega
      by_cases hp : isCst coeff 1 = true
      · rw [if_pos hp]
        exact ⟨_, _, rfl, h3, fun ρ => by simp only [Expr.eval, h2, hi, isCst_eval hp]; ring⟩
      · rw [if_neg hp]
        have hq : isCst coeff (-1) = true := by tauto
        exact ⟨_, _, rfl, h3, fun ρ => by simp only [Expr.eval, h2, hi, isCst_eval hq]; ring⟩
  · rw [if_neg hc]
    obtain ⟨pw, m1, h1, h2, h3⟩ := C14_power_partial v prec (cur - index) (by omega) m hm
    simp only [h1]
    have hsplit : ∀ ρ, v.eval ρ ^ cur = v.eval ρ ^ (cur - index) * v.eval ρ ^ index := by
      intro ρ; rw [← pow_add]; congr 1; omega
    by_cases h0 : 0 < index
    · rw [if_pos h0]
      obtain ⟨lp, m2, h4, h5, h6⟩ := C14_power_partial v prec index h0 m1 h3
      rw [h4]
      exact ⟨_, _, rfl, h6, fun ρ => by simp only [Expr.eval, h2, h5, hsplit]; ring⟩
    · rw [if_neg h0]
      have : index = 0 := by omega
      subst this
      exact ⟨_, _, rfl, h3, fun ρ => by simp only [Expr.eval, h2, Nat.sub_zero]; ring⟩

/-- C15 on lists of coefficient nodes in strictly decreasing index order. -/
theorem C15_horner_nodes [DecidableEq K] (v : Expr K) (prec : ℕ) (l : List (ℕ × Expr K)) (m : PMap K) (hm : MapOK v m)
    (hs : (l.map Prod.fst).Pairwise (fun a b => b < a)) :
    ∃ e m', horner2 v prec l m = .ok (e, m') ∧ MapOK v m' ∧ ∀ ρ, e.eval ρ = termsValue ρ (v.eval ρ) l := by
  match l, hs with
  | [], _ => exact ⟨_, _, rfl, hm, fun ρ => by simp [Expr.eval, termsValue]⟩
  | [(index, coeff)], _ =>
    by_cases h0 : index = 0
    · refine ⟨coeff, m, by simp [horner2, h0], hm, fun ρ => by simp [termsValue, h0]⟩
    · obtain ⟨pw, m1, h1, h2, h3⟩ := C14_power_partial v prec index (by omega) m hm
      exact ⟨.mul pw coeff, m1, by simp [horner2, h0, h1], h3, fun ρ => by simp [termsValue, Expr.eval, h2, mul_comm]⟩
  | (i0, c0) :: q :: rest, hs =>
    have hne : q :: rest ≠ [] := by simp
    set last := (q :: rest).getLast hne with hlast
    set mid := (q :: rest).dropLast with hmid
    have hsplit : q :: rest = mid ++ [last] := (List.dropLast_append_getLast hne).symm
    rw [hsplit] at hs
    simp only [List.map_cons, List.map_append, List.map_nil, List.pairwise_cons, List.pairwise_append, List.mem_append,
      List.mem_singleton, List.mem_map] at hs
    obtain ⟨hs0, hs1, -, hs2⟩ := hs
    obtain ⟨cur', s', m1, h1, h2, h3, h4⟩ := hornerLoop_spec v prec mid i0 c0 m hm hs1
      (fun p hp => hs0 p.1 (Or.inl ⟨p, hp, rfl⟩))
    have hcur : last.1 < cur' := h4 last.1 (hs0 last.1 (Or.inr rfl)) (fun p hp => hs2 p.1 ⟨p, hp, rfl⟩ last.1 rfl)
    obtain ⟨e, m2, h5, h6, h7⟩ := hornerLast_spec v prec last.1 last.2 cur' s' m1 h2 hcur
    refine ⟨e, m2, ?_, h6, fun ρ => ?_⟩
    · rw [horner2, ← hmid, h1]
      exact h5
    · rw [h7, h3, hsplit]
      simp [termsValue]
      ring

theorem orderedDesc_perm (p : PolyObj K) : (orderedDesc p).Perm p.coeffs :=
  (List.reverse_perm _).trans (List.mergeSort_perm _ _)

theorem orderedDesc_sorted (p : PolyObj K) (hn : (p.coeffs.map Prod.fst).Nodup) :
    ((orderedDesc p).map Prod.fst).Pairwise (fun a b => b < a) := by
  have hs : (p.coeffs.mergeSort fun a b => decide (a.1 ≤ b.1)).Pairwise (fun a b => decide (a.1 ≤ b.1) = true) := by
    apply List.pairwise_mergeSort
    · intro a b c h1 h2; simp only [decide_eq_true_eq] at *; omega
    · intro a b; simp only [Bool.or_eq_true, decide_eq_true_eq]; omega
  have hnd : ((orderedDesc p).map Prod.fst).Nodup := ((orderedDesc_perm p).map Prod.fst).nodup_iff.2 hn
  have hs' : ((orderedDesc p).map Prod.fst).Pairwise (fun a b => b ≤ a) := by
    rw [List.pairwise_map, orderedDesc, List.pairwise_reverse]
    exact hs.imp (fun h => by simpa using h)
  exact (hs'.and hnd).imp (fun h => by obtain ⟨h1, h2⟩ := h; omega)

/-- C15: for every polynomial object with distinct indices, the generated Horner graph has the value of the polynomial at the
variable, in any commutative ring. -/
theorem C15_horner [DecidableEq K] (p : PolyObj K) (hn : (p.coeffs.map Prod.fst).Nodup) (v : Expr K) (prec : ℕ) (m : PMap K)
    (hm : MapOK v m) :
    ∃ e m', horner p v prec m = .ok (e, m') ∧ MapOK v m' ∧ ∀ ρ, e.eval ρ = polyValue p.coeffs (v.eval ρ) := by
  obtain ⟨e, m', h1, h2, h3⟩ := C15_horner_nodes v prec ((orderedDesc p).map fun q => (q.1, Expr.cst q.2)) m hm
    (by rw [List.map_map]; exact orderedDesc_sorted p hn)
  refine ⟨e, m', h1, h2, fun ρ => ?_⟩
  rw [h3, termsValue, polyValue, List.map_map]
  exact ((orderedDesc_perm p).map _).sum_eq

example : ((ofDict (K := ℤ) [(7, 3), (1, -1), (4, 5)]).coeffs.map Prod.fst).Nodup := by decide

example : ∃ e m', horner (K := ℤ) (ofDict [(7, 3), (1, -1), (4, 5)]) (.var 0) 0 (fun _ => none) = .ok (e, m') ∧
    e.eval (fun _ => 2) = 3 * 2 ^ 7 + 5 * 2 ^ 4 - 2 := by
  obtain ⟨e, m', h1, _, h2⟩ := C15_horner (K := ℤ) (ofDict [(7, 3), (1, -1), (4, 5)]) (by decide) (.var 0) 0 (fun _ => none)
    (fun n p e h => by simp at h)
  exact ⟨e, m', h1, by rw [h2]; decide⟩

/-! ## C16 -/

theorem foldl_min_spec : ∀ (l : List ℕ) (a : ℕ), (l.foldl min a = a ∨ l.foldl min a ∈ l) ∧ l.foldl min a ≤ a ∧
    ∀ b ∈ l, l.foldl min a ≤ b := by
  intro l
  induction l with
  | nil => intro a; simp
  | cons b t ih =>
    intro a
    obtain ⟨h1, h2, h3⟩ := ih (min a b)
    simp only [List.foldl_cons, List.mem_cons]
    refine ⟨?_, by omega, ?_⟩
    · rcases h1 with h1 | h1
      · rcases le_total a b with hab | hab
        · left; rw [h1]; omega
        · right; left; rw [h1]; omega
      · right; right; exact h1
    · rintro c (rfl | hc)
      · omega
      · exact h3 c hc

theorem foldl_max_spec : ∀ (l : List ℕ) (a : ℕ),
    (l.foldl (fun d i => if i ≤ d then d else i) a = a ∨ l.foldl (fun d i => if i ≤ d then d else i) a ∈ l) ∧
    a ≤ l.foldl (fun d i => if i ≤ d then d else i) a ∧ ∀ b ∈ l, b ≤ l.foldl (fun d i => if i ≤ d then d else i) a := by
  intro l
  induction l with
  | nil => intro a; simp
  | cons b t ih =>
    intro a
    simp only [List.foldl_cons, List.mem_cons]
    obtain ⟨h1, h2, h3⟩ := ih (if b ≤ a then a else b)
    by_cases hab : b ≤ a
    · simp only [if_pos hab] at *
      exact ⟨by tauto, h2, by rintro c (rfl | hc); omega; exact h3 c hc⟩
    · simp only [if_neg hab] at *
      exact ⟨by tauto, by omega, by rintro c (rfl | hc); omega; exact h3 c hc⟩

/-- What the scheme generator needs of a polynomial object built from a dictionary. -/
def DictBuilt (p : PolyObj K) : Prop := (p.coeffs.map Prod.fst).Nodup ∧ (∀ k ∈ p.coeffs.map Prod.fst, k ≤ p.degree) ∧
  (p.coeffs ≠ [] → p.degree ∈ p.coeffs.map Prod.fst)

theorem ofDict_built (m : List (ℕ × K)) (hn : (m.map Prod.fst).Nodup) : DictBuilt (ofDict m) := by
  obtain ⟨h1, h2, h3⟩ := foldl_max_spec (m.map Prod.fst) 0
  refine ⟨hn, h3, fun hne => ?_⟩
  rcases h1 with h1 | h1
  · match m, hne with
    | q :: rest, _ =>
      have := h3 q.1 (by simp)
      rw [h1] at this
      change List.foldl _ _ _ ∈ _
      rw [h1]
      simp only [ofDict, List.map_cons, List.mem_cons]
      left; omega
  · exact h1

theorem sum_split (l : List (ℕ × K)) (c d off : ℕ) (hd : ∀ q ∈ l, q.1 ≤ d) (x : K) (hoff : off ≤ c + 1) :
    polyValue l x = polyValue ((l.filter fun q => decide (0 ≤ q.1 ∧ q.1 < c + 1)).map fun q => (q.1 - 0, q.2)) x +
      x ^ off * polyValue ((l.filter fun q => decide (c + 1 ≤ q.1 ∧ q.1 < d + 1)).map fun q => (q.1 - off, q.2)) x := by
  induction l with
  | nil => simp [polyValue]
  | cons q t ih =>
    have ih := ih (fun r hr => hd r (by simp [hr]))
    have hq := hd q (by simp)
    by_cases h : q.1 ≤ c
    · rw [List.filter_cons_of_pos (by simp; omega), List.filter_cons_of_neg (by simp; omega)]
      simp only [polyValue, List.map_cons, List.sum_cons, Nat.sub_zero] at ih ⊢
      rw [ih]; ring
    · rw [List.filter_cons_of_neg (by simp; omega), List.filter_cons_of_pos (by simp; omega)]
      simp only [polyValue, List.map_cons, List.sum_cons, Nat.sub_zero] at ih ⊢
      rw [ih]
      have : x ^ q.1 = x ^ off * x ^ (q.1 - off) := by rw [← pow_add]; congr 1; omega
      rw [this]; ring

theorem length_split (l : List (ℕ × K)) (c d : ℕ) (hd : ∀ q ∈ l, q.1 ≤ d) :
    (l.filter fun q => decide (0 ≤ q.1 ∧ q.1 < c + 1)).length + (l.filter fun q => decide (c + 1 ≤ q.1 ∧ q.1 < d + 1)).length =
      l.length := by
  induction l with
  | nil => simp
  | cons q t ih =>
    have ih := ih (fun r hr => hd r (by simp [hr]))
    have hq := hd q (by simp)
    by_cases h : q.1 ≤ c
    · rw [List.filter_cons_of_pos (by simp; omega), List.filter_cons_of_neg (by simp; omega)]
      simp only [List.length_cons]; omega
    · rw [List.filter_cons_of_neg (by simp; omega), List.filter_cons_of_pos (by simp; omega)]
      simp only [List.length_cons]; omega

/-- Keys shifted by at most the filter bound stay distinct. -/
theorem nodup_sub (l : List (ℕ × K)) (hn : (l.map Prod.fst).Nodup) (P : ℕ × K → Bool) (off : ℕ) (hP : ∀ q, P q = true → off ≤ q.1) :
    (((l.filter P).map fun q => (q.1 - off, q.2)).map Prod.fst).Nodup := by
  rw [List.map_map]
  have h1 : ((l.filter P).map Prod.fst).Nodup := (List.filter_sublist.map Prod.fst).nodup hn
  rw [List.Nodup, List.pairwise_map] at h1 ⊢
  refine h1.imp_of_mem fun {a b} ha hb hab => ?_
  have ha' := hP a (List.mem_filter.1 ha).2
  have hb' := hP b (List.mem_filter.1 hb).2
  simp only [Function.comp]
  omega

/-- One split: if both halves are non-empty and the generator is right on smaller dictionary-built objects, it is right. -/
theorem estrin_step (v : Expr K) (prec depth : ℕ)
    (ih : ∀ (p : PolyObj K) (m : PMap K), DictBuilt p → p.coeffs ≠ [] → p.coeffs.length ≤ depth → MapOK v m →
      ∃ e m', estrin v prec depth p m = .ok (e, m') ∧ MapOK v m' ∧ ∀ ρ, e.eval ρ = polyValue p.coeffs (v.eval ρ))
    (p : PolyObj K) (m : PMap K) (hm : MapOK v m) (hn : (p.coeffs.map Prod.fst).Nodup)
    (hd : ∀ k ∈ p.coeffs.map Prod.fst, k ≤ p.degree) (hlen : p.coeffs.length ≤ depth + 1) (h2 : 2 ≤ p.coeffs.length)
    (hhi : ∀ mn, mn ∈ p.coeffs.map Prod.fst → (∀ k ∈ p.coeffs.map Prod.fst, mn ≤ k) →
      ∃ k ∈ p.coeffs.map Prod.fst, (p.degree - mn + 2) / 2 + mn - 1 < k) :
    ∃ e m', estrin v prec (depth + 1) p m = .ok (e, m') ∧ MapOK v m' ∧ ∀ ρ, e.eval ρ = polyValue p.coeffs (v.eval ρ) := by
  match hc : p.coeffs, h2 with
  | q :: r :: rest, _ =>
    rw [estrin, hc]
    dsimp only
    set mn := ((r :: rest).map Prod.fst).foldl min q.1 with hmn
    obtain ⟨g1, g2, g3⟩ := foldl_min_spec ((r :: rest).map Prod.fst) q.1
    rw [← hmn] at g1 g2 g3
    have hmem : mn ∈ p.coeffs.map Prod.fst := by
      rw [hc]
      rw [List.map_cons, List.mem_cons]
      exact g1
    have hle : ∀ k ∈ p.coeffs.map Prod.fst, mn ≤ k := by
      rw [hc, List.map_cons]
      intro k hk
      rcases List.mem_cons.1 hk with rfl | hk
      · exact g2
      · exact g3 k hk
    obtain ⟨kmax, hk1, hk2⟩ := hhi mn hmem hle
    have hdeg : mn ≤ p.degree := hd mn hmem
    set pd := (p.degree - mn + 2) / 2 + mn - 1 with hpd
    have hpd1 : mn ≤ pd := by omega
    have hkd := hd kmax hk1
    obtain ⟨qmin, hqm, hqmin⟩ := List.mem_map.1 hmem
    obtain ⟨qmax, hqM, hqmax⟩ := List.mem_map.1 hk1
    have hd' : ∀ q ∈ p.coeffs, q.1 ≤ p.degree := fun q hq => hd q.1 (List.mem_map_of_mem hq)
    have hlo : (subPoly p 0 (some pd) 0).coeffs =
      (p.coeffs.filter fun q => decide (0 ≤ q.1 ∧ q.1 < pd + 1)).map fun q => (q.1 - 0, q.2) := rfl
    have hhi' : (subPoly p (pd + 1) none (pd + 1 - mn)).coeffs =
      (p.coeffs.filter fun q => decide (pd + 1 ≤ q.1 ∧ q.1 < p.degree + 1)).map fun q => (q.1 - (pd + 1 - mn), q.2) := rfl
    have hlen2 := length_split p.coeffs pd p.degree hd'
    have hmlo : qmin ∈ p.coeffs.filter fun q => decide (0 ≤ q.1 ∧ q.1 < pd + 1) := by
      rw [List.mem_filter]; exact ⟨hqm, by simp; omega⟩
    have hmhi : qmax ∈ p.coeffs.filter fun q => decide (pd + 1 ≤ q.1 ∧ q.1 < p.degree + 1) := by
      rw [List.mem_filter]; exact ⟨hqM, by simp; omega⟩
    have hl1 := List.length_pos_of_mem hmlo
    have hl2 := List.length_pos_of_mem hmhi
    obtain ⟨lo, m1, a1, a2, a3⟩ := ih (subPoly p 0 (some pd) 0) m
      (ofDict_built _ (nodup_sub _ hn _ 0 (by simp)))
      (by rw [hlo]; intro h; rw [List.map_eq_nil_iff] at h; rw [h] at hmlo; simp at hmlo)
      (by rw [hlo, List.length_map]; omega) hm
    obtain ⟨hi, m2, b1, b2, b3⟩ := ih (subPoly p (pd + 1) none (pd + 1 - mn)) m1
      (ofDict_built _ (nodup_sub _ hn _ (pd + 1 - mn) (by simp; omega)))
      (by rw [hhi']; intro h; rw [List.map_eq_nil_iff] at h; rw [h] at hmhi; simp at hmhi)
      (by rw [hhi', List.length_map]; omega) a2
    obtain ⟨off, m3, c1, c2, c3⟩ := C14_power_partial v prec (pd + 1 - mn) (by omega) m2 b2
    rw [a1]; dsimp only
    rw [b1]; dsimp only
    rw [c1]
    refine ⟨_, _, rfl, c3, fun ρ => ?_⟩
    rw [← hc, sum_split p.coeffs pd p.degree (pd + 1 - mn) hd' (v.eval ρ) (by omega), ← hlo, ← hhi']
    simp only [Expr.eval, a3, b3, c2]

theorem estrin_dict (v : Expr K) (prec : ℕ) : ∀ (depth : ℕ) (p : PolyObj K) (m : PMap K), DictBuilt p → p.coeffs ≠ [] →
    p.coeffs.length ≤ depth → MapOK v m →
      ∃ e m', estrin v prec depth p m = .ok (e, m') ∧ MapOK v m' ∧ ∀ ρ, e.eval ρ = polyValue p.coeffs (v.eval ρ) := by
  intro depth
  induction depth with
  | zero =>
    intro p m _ hne hl
    exact absurd (List.length_eq_zero_iff.1 (by omega)) hne
  | succ depth ih =>
    intro p m hb hne hl hm
    obtain ⟨hn, hd, hmem⟩ := hb
    by_cases h1 : p.coeffs.length = 1
    · obtain ⟨⟨index, coeff⟩, hq⟩ := List.length_eq_one_iff.1 h1
      rw [estrin, hq]
      dsimp only
      by_cases h0 : index = 0
      · rw [if_pos h0]
        exact ⟨_, _, rfl, hm, fun ρ => by simp [polyValue, Expr.eval, h0]⟩
      · rw [if_neg h0]
        obtain ⟨pw, m1, g1, g2, g3⟩ := C14_power_partial v prec index (by omega) m hm
        rw [g1]
        exact ⟨_, _, rfl, g3, fun ρ => by simp [polyValue, Expr.eval, g2]⟩
    · have h2 : 2 ≤ p.coeffs.length := by
        have := List.length_pos_iff.2 hne
        omega
      refine estrin_step v prec depth ih p m hm hn hd hl h2 fun mn hmn hle => ⟨p.degree, hmem hne, ?_⟩
      -- two distinct indices: the smallest is below the degree
      have hlt : mn < p.degree := by
        by_contra hcon
        have hall : ∀ k ∈ p.coeffs.map Prod.fst, k = mn := fun k hk => by
          have := hle k hk; have := hd k hk; omega
        have hrep : p.coeffs.map Prod.fst = List.replicate p.coeffs.length mn := by
          rw [List.eq_replicate_iff]; exact ⟨by simp, hall⟩
        rw [hrep, List.nodup_replicate] at hn
        omega
      omega

/-- C16: for every dictionary of at least one coefficient (as also produced from a non-zero Sollya polynomial), the Estrin graph
has the value of the polynomial; a recursion depth equal to the number of coefficients is enough.  Missing: the empty
dictionary and two-element lists, on which generation raises (below). -/
theorem C16_estrin_partial (c : List (ℕ × K)) (hn : (c.map Prod.fst).Nodup) (hne : c ≠ []) (v : Expr K) (prec : ℕ) (m : PMap K)
    (hm : MapOK v m) (depth : ℕ) (hdepth : c.length ≤ depth) :
    ∃ e m', estrin v prec depth (ofDict c) m = .ok (e, m') ∧ MapOK v m' ∧ ∀ ρ, e.eval ρ = polyValue c (v.eval ρ) :=
  estrin_dict v prec depth (ofDict c) m (ofDict_built c hn) hne hdepth hm

example : ∃ e m', estrin (K := ℤ) (.var 0) 0 10 (ofDict [(9, 3), (1, -1), (4, 5), (5, 2)]) (fun _ => none) = .ok (e, m') ∧
    e.eval (fun _ => 2) = 3 * 2 ^ 9 + 2 * 2 ^ 5 + 5 * 2 ^ 4 - 2 := by
  obtain ⟨e, m', h1, _, h2⟩ := C16_estrin_partial (K := ℤ) [(9, 3), (1, -1), (4, 5), (5, 2)] (by decide) (by simp) (.var 0) 0
    (fun _ => none) (fun n p e h => by simp at h) 10 (by decide)
  exact ⟨e, m', h1, by rw [h2]; decide⟩

theorem ofList_keys (l : List K) : (ofList l).coeffs.map Prod.fst = List.range l.length := by
  simp only [ofList, List.map_map]
  have : (Prod.fst ∘ fun p : K × ℕ => (p.2, p.1)) = Prod.snd := rfl
  rw [this, List.zipIdx_map_snd, List.range_eq_range']

/-- C16 for polynomial objects built from a list of coefficients, of any length but 0 and 2. -/
theorem C16_estrin_list_partial (l : List K) (h0 : l.length ≠ 0) (h2 : l.length ≠ 2) (v : Expr K) (prec : ℕ) (m : PMap K)
    (hm : MapOK v m) (depth : ℕ) (hdepth : l.length ≤ depth) :
    ∃ e m', estrin v prec depth (ofList l) m = .ok (e, m') ∧ MapOK v m' ∧
      ∀ ρ, e.eval ρ = polyValue (l.zipIdx.map fun p => (p.2, p.1)) (v.eval ρ) := by
  by_cases h1 : l.length = 1
  · obtain ⟨c, rfl⟩ := List.length_eq_one_iff.1 h1
    obtain ⟨d, rfl⟩ : ∃ d, depth = d + 1 := ⟨depth - 1, by omega⟩
    exact ⟨.cst c, m, rfl, hm, fun ρ => by simp [polyValue, Expr.eval]⟩
  · obtain ⟨d, rfl⟩ : ∃ d, depth = d + 1 := ⟨depth - 1, by omega⟩
    have hk := ofList_keys l
    have hl : (ofList l).coeffs.length = l.length := by simp [ofList]
    refine estrin_step v prec d (estrin_dict v prec d) (ofList l) m hm ?_ ?_ (by omega) (by omega) ?_
    · rw [hk]; exact List.nodup_range
    · rw [hk]; intro k h; rw [List.mem_range] at h; exact h.le
    · rw [hk]
      intro mn hmn hle
      have : mn ≤ 0 := hle 0 (by rw [List.mem_range]; omega)
      have hdeg : (ofList l).degree = l.length := rfl
      exact ⟨l.length - 1, by rw [List.mem_range]; omega, by rw [hdeg]; omega⟩

/-- C16 fails on polynomial objects built from any list of two coefficients: the upper half is empty and generation raises. -/
theorem C16_two_coefficients_raise (a b : K) (v : Expr K) (prec depth : ℕ) (m : PMap K) (hm : MapOK v m) :
    estrin v prec (depth + 3) (ofList [a, b]) m = .error .valueError := by
  obtain ⟨e, m', h1, _, _⟩ := estrin_dict v prec (depth + 2) (subPoly (ofList [a, b]) 0 (some 1) 0) m
    (ofDict_built _ (nodup_sub _ (by simp [ofList]) _ 0 (by simp))) (by simp [subPoly, ofList, ofDict])
    (by simp [subPoly, ofList, ofDict]) hm
  rw [estrin]
  simp only [ofList, List.zipIdx_cons, List.zipIdx_nil, List.map_cons, List.map_nil, List.foldl_cons, List.foldl_nil,
    List.length_cons, List.length_nil]
  simp only [ofList, List.zipIdx_cons, List.zipIdx_nil, List.map_cons, List.map_nil, List.length_cons, List.length_nil] at h1
  norm_num at h1 ⊢
  rw [h1]
  dsimp only
  rw [estrin]
  simp [subPoly, ofDict]

/-- C16 fails on the polynomial without coefficients: generation raises instead of returning zero. -/
theorem C16_empty_raises (v : Expr K) (prec depth : ℕ) (m : PMap K) :
    estrin v prec (depth + 1) (ofDict ([] : List (ℕ × K))) m = .error .valueError := rfl

end Verif.Poly
