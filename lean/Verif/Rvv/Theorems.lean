import Verif.Rvv.Model
import Mathlib.Tactic.Linarith
import Mathlib.Tactic.NormNum
import Mathlib.Data.Real.Archimedean
import Mathlib.Tactic.Positivity

namespace Verif.Rvv

/-- the expression for operands that are variables -/
def alone (e : Entry) : Option Code := emit 4 e.op e.out ((List.range e.ins.length).map fun n => (e.ins.getD n .mask, .opd n))

/-- For each operation and each combination of formats of the table, an expression is generated, and it compiles to the format of the operation exactly when it is not one of
the listed combinations: for these a function that does not exist is called. -/
theorem C124_compiles : ∀ e ∈ table, ∃ c, alone e = some c ∧ (typ (fun n => e.ins.getD n .mask) c = some e.out ↔ noFunction e.op e.out e.ins = false) := by
  have h : ∀ e ∈ table, (alone e).any (fun c => decide (typ (fun n => e.ins.getD n .mask) c = some e.out ↔ noFunction e.op e.out e.ins = false)) = true := by
    decide +kernel
  intro e he
  have := h e he
  rcases ha : alone e with _ | c
  · simp [ha] at this
  · refine ⟨c, rfl, ?_⟩
    rw [ha, Option.any_some] at this
    exact of_decide_eq_true this

/-- the operations whose code is right: not the floor, not the conversion of a float -/
def right (op : Op) (out : Fmt) (ins : List Fmt) : Bool :=
  !noFunction op out ins && decide (op ≠ .floor) && !(decide (op = .conv) && decide (elt ins = .f))

variable {w : ℕ}

theorem cvt_ok (P : Fp w) (r : ℚ → ℤ) {x v : BitVec w} (h : toSigned r (P.val x) = some v) : cvt P r x = v := by
  unfold toSigned at h
  unfold cvt
  cases hv : P.val x with
  | none => rw [hv] at h; simp at h
  | some q =>
    rw [hv] at h
    simp only [Option.bind_some] at h
    split at h
    · rename_i hq
      have h1 : min (2 ^ (w - 1) - 1) (r q) = r q := min_eq_right (by linarith [Int.add_one_le_iff.2 hq.2])
      have h2 : max (-2 ^ (w - 1)) (r q) = r q := max_eq_right hq.1
      show BitVec.ofInt w (max (-2 ^ (w - 1)) (min (2 ^ (w - 1) - 1) (r q))) = v
      rw [h1, h2]
      exact Option.some.inj h
    · simp at h

def Sound (op : Op) (out : Fmt) (ins : List Fmt) : Prop :=
  ∀ (Γ : ℕ → Fmt) (cs : List Code), List.Forall₂ (fun f c => typ Γ c = some f) ins cs →
    ∃ c, emit 4 op out (ins.zip cs) = some c ∧ typ Γ c = some out ∧
      ∀ {w : ℕ} (P : Fp w) (vl : ℕ) (junk : Intr → ℕ → BitVec w) (ρ : ℕ → ℕ → BitVec w) (j : ℕ) (v : BitVec w), j < vl →
        sem P op (elt ins) out (cs.map fun c => eval P vl junk ρ c j) = some v → eval P vl junk ρ c j = v

theorem min_swap (x y : BitVec w) : (if y.toInt ≤ x.toInt then y else x) = if x.toInt ≤ y.toInt then x else y := by
  split_ifs with h1 h2 h2
  · exact BitVec.eq_of_toInt_eq (le_antisymm h1 h2)
  · rfl
  · rfl
  · omega

theorem max_swap (x y : BitVec w) : (if y.toInt ≤ x.toInt then x else y) = if x.toInt ≤ y.toInt then y else x := by
  split_ifs with h1 h2 h2
  · exact BitVec.eq_of_toInt_eq (le_antisymm h2 h1)
  · rfl
  · rfl
  · omega

theorem len1 {α β : Type} {R : α → β → Prop} {a : α} {l : List β} (h : List.Forall₂ R [a] l) : ∃ x, l = [x] ∧ R a x := by
  cases h with
  | cons h t => cases t; exact ⟨_, rfl, h⟩

theorem len2 {α β : Type} {R : α → β → Prop} {a b : α} {l : List β} (h : List.Forall₂ R [a, b] l) : ∃ x y, l = [x, y] ∧ R a x ∧ R b y := by
  cases h with
  | cons h t => obtain ⟨y, rfl, hy⟩ := len1 t; exact ⟨_, y, rfl, h, hy⟩

theorem len3 {α β : Type} {R : α → β → Prop} {a b c : α} {l : List β} (h : List.Forall₂ R [a, b, c] l) :
    ∃ x y z, l = [x, y, z] ∧ R a x ∧ R b y ∧ R c z := by
  cases h with
  | cons h t => obtain ⟨y, z, rfl, hy, hz⟩ := len2 t; exact ⟨_, y, z, rfl, h, hy, hz⟩

theorem sound_table : ∀ e ∈ table, right e.op e.out e.ins = true → Sound e.op e.out e.ins := by
  unfold table addRows subRows logicRows mulRows fmaRows negRows shiftRows convRows selectRows minRows
  simp only [ints, kinds, castTo, List.map_cons, List.map_nil, List.flatMap_cons, List.flatMap_nil, List.append_nil, List.cons_append, List.nil_append, List.append_assoc]
  repeat' refine List.forall_mem_cons.2 ⟨?_, ?_⟩
  all_goals first
    | exact fun e he => absurd he List.not_mem_nil
    | (intro h; exact absurd h (by decide))
    | (intro _ Γ cs hcs
       first
         | obtain ⟨a, rfl, h1⟩ := len1 hcs
         | obtain ⟨a, b, rfl, h1, h2⟩ := len2 hcs
         | obtain ⟨a, b, c, rfl, h1, h2, h3⟩ := len3 hcs
       refine ⟨_, rfl, ?_, ?_⟩
       · simp [typ, sig, last, pick, ent, *]
       · intro w P vl junk ρ j v hj hv
         simp [sem, elt, ent] at hv <;> first
         | simpa [eval, run, hj, pick, ent] using hv
         | (obtain ⟨hlt, hv⟩ := hv; simpa [eval, run, hj, Nat.mod_eq_of_lt hlt] using hv)
         | (obtain ⟨_, hv⟩ := hv; simpa [eval, run, hj] using hv)
         | (rw [← hv]; simp [eval, run, hj]; first | exact BitVec.add_comm _ _ | exact BitVec.mul_comm _ _ | exact min_swap _ _ | exact max_swap _ _ | exact P.add_comm _ _ | exact P.mul_comm _ _ | exact P.min_comm _ _ | exact P.max_comm _ _ | exact P.fma_comm _ _ _)
         | (simpa [eval, run, hj] using cvt_ok P _ hv))

/-- an operation of the table among those whose code is right -/
def Supported (op : Op) (out : Fmt) (ins : List Fmt) : Prop := (∃ e ∈ table, e.op = op ∧ e.out = out ∧ e.ins = ins) ∧ right op out ins = true

/-- an expression made of such operations, on variables declared with the formats `Γ` -/
def WF (Γ : ℕ → Fmt) : Tm → Prop
  | .opd k f => Γ k = f
  | .un op out a => WF Γ a ∧ Supported op out [a.fmt]
  | .bin op out a b => WF Γ a ∧ WF Γ b ∧ Supported op out [a.fmt, b.fmt]
  | .ter op out a b c => WF Γ a ∧ WF Γ b ∧ WF Γ c ∧ Supported op out [a.fmt, b.fmt, c.fmt]

theorem sound_of {op : Op} {out : Fmt} {ins : List Fmt} (h : Supported op out ins) : Sound op out ins := by
  obtain ⟨⟨e, he, rfl, rfl, rfl⟩, hr⟩ := h
  exact sound_table e he hr

/-- For each expression made of operations of the table, except the floor, the conversion of floats to integers and the combinations that do not compile: the expression
generated compiles, and in each lane below the length it has the value that the operations define there, whatever the lanes beyond hold. -/
theorem C124_lanes_partial (Γ : ℕ → Fmt) (t : Tm) (ht : WF Γ t) :
    ∃ c, gen t = some c ∧ typ Γ c = some t.fmt ∧
      ∀ {w : ℕ} (P : Fp w) (vl : ℕ) (junk : Intr → ℕ → BitVec w) (ρ : ℕ → ℕ → BitVec w) (j : ℕ) (v : BitVec w), j < vl →
        den P ρ j t = some v → eval P vl junk ρ c j = v := by
  induction t with
  | opd k f =>
    refine ⟨.opd k, rfl, congrArg some ht, ?_⟩
    intro w P vl junk ρ j v _ h
    exact Option.some.inj h
  | un op out a iha =>
    obtain ⟨ha, hs⟩ := ht
    obtain ⟨x, gx, tx, ex⟩ := iha ha
    obtain ⟨c, gc, tc, ec⟩ := sound_of hs Γ [x] (.cons tx .nil)
    refine ⟨c, by simp only [gen, gx, Option.bind_some]; exact gc, tc, ?_⟩
    intro w P vl junk ρ j v hj h
    simp only [den, Option.bind_eq_some_iff] at h
    obtain ⟨p, hp, h⟩ := h
    refine ec P vl junk ρ j v hj ?_
    simpa only [List.map_cons, List.map_nil, ex P vl junk ρ j p hj hp] using h
  | bin op out a b iha ihb =>
    obtain ⟨ha, hb, hs⟩ := ht
    obtain ⟨x, gx, tx, ex⟩ := iha ha
    obtain ⟨y, gy, ty, ey⟩ := ihb hb
    obtain ⟨c, gc, tc, ec⟩ := sound_of hs Γ [x, y] (.cons tx (.cons ty .nil))
    refine ⟨c, by simp only [gen, gx, gy, Option.bind_some]; exact gc, tc, ?_⟩
    intro w P vl junk ρ j v hj h
    simp only [den, Option.bind_eq_some_iff] at h
    obtain ⟨p, hp, q, hq, h⟩ := h
    refine ec P vl junk ρ j v hj ?_
    simpa only [List.map_cons, List.map_nil, ex P vl junk ρ j p hj hp, ey P vl junk ρ j q hj hq] using h
  | ter op out a b d iha ihb ihd =>
    obtain ⟨ha, hb, hd, hs⟩ := ht
    obtain ⟨x, gx, tx, ex⟩ := iha ha
    obtain ⟨y, gy, ty, ey⟩ := ihb hb
    obtain ⟨z, gz, tz, ez⟩ := ihd hd
    obtain ⟨c, gc, tc, ec⟩ := sound_of hs Γ [x, y, z] (.cons tx (.cons ty (.cons tz .nil)))
    refine ⟨c, by simp only [gen, gx, gy, gz, Option.bind_some]; exact gc, tc, ?_⟩
    intro w P vl junk ρ j v hj h
    simp only [den, Option.bind_eq_some_iff] at h
    obtain ⟨p, hp, q, hq, r, hr, h⟩ := h
    refine ec P vl junk ρ j v hj ?_
    simpa only [List.map_cons, List.map_nil, ex P vl junk ρ j p hj hp, ey P vl junk ρ j q hj hq, ez P vl junk ρ j r hj hr] using h

/-! ## The roundings -/

theorem rne_near (q : ℚ) : |(rne q : ℚ) - q| < 1 := by
  have h1 := Int.floor_le q
  have h2 := Int.lt_floor_add_one q
  unfold rne
  rw [abs_lt]
  split_ifs <;> push_cast <;> constructor <;> linarith

theorem rtz_near (q : ℚ) : |(rtz q : ℚ) - q| < 1 := by
  have h1 := Int.floor_le q
  have h2 := Int.lt_floor_add_one q
  have h3 := Int.le_ceil q
  have h4 := Int.ceil_lt_add_one q
  unfold rtz
  rw [abs_lt]
  split_ifs <;> constructor <;> linarith

theorem rne_int (n : ℤ) : rne n = n := by
  unfold rne
  simp

theorem rtz_int (n : ℤ) : rtz n = n := by
  unfold rtz
  simp

theorem rne_half (q : ℚ) : |q - rne q| ≤ 1 / 2 := by
  have h1 := Int.floor_le q
  have h2 := Int.lt_floor_add_one q
  unfold rne
  rw [abs_le]
  split_ifs <;> push_cast <;> constructor <;> linarith

/-- the rounding the instruction does -/
def instrRound : Op → ℚ → ℤ
  | .nearest => rne
  | .conv => rne
  | _ => rtz

/-- what is left in the lane for a float result -/
theorem eval_round {op : Op} (hop : op = .nearest ∨ op = .floor ∨ op = .trunc) :
    ∃ c, gen (.un op (.vec .f) (.opd 0 (.vec .f))) = some c ∧ typ (fun _ => .vec .f) c = some (.vec .f) ∧
      ∀ {w : ℕ} (P : Fp w) (vl : ℕ) (junk : Intr → ℕ → BitVec w) (ρ : ℕ → ℕ → BitVec w) (j : ℕ), j < vl →
        eval P vl junk ρ c j = P.ofInt (cvt P (instrRound op) (ρ 0 j)) := by
  rcases hop with rfl | rfl | rfl <;>
  · refine ⟨_, rfl, rfl, ?_⟩
    intro w P vl junk ρ j hj
    simp [eval, run, hj, instrRound]

theorem cvt_toInt (hw : 0 < w) (P : Fp w) (r : ℚ → ℤ) {x : BitVec w} {q : ℚ} (hq : P.val x = some q) (h1 : -2 ^ (w - 1) ≤ r q) (h2 : r q < 2 ^ (w - 1)) :
    (cvt P r x).toInt = r q := by
  have : cvt P r x = BitVec.ofInt w (r q) := cvt_ok P r (by simp [toSigned, hq, h1, h2])
  rw [this]
  exact BitVec.toInt_ofInt_eq_self hw h1 h2

/-- Rounding floats to integers that are floats: to nearest and towards zero when the rounded number is one of the signed integers of the width, and the floor when, in addition,
the number is not negative or is an integer. -/
theorem C124_rounding_partial {op : Op} (hop : op = .nearest ∨ op = .floor ∨ op = .trunc) :
    ∃ c, gen (.un op (.vec .f) (.opd 0 (.vec .f))) = some c ∧ typ (fun _ => .vec .f) c = some (.vec .f) ∧
      ∀ {w : ℕ} (P : Fp w) (vl : ℕ) (junk : Intr → ℕ → BitVec w) (ρ : ℕ → ℕ → BitVec w) (j : ℕ) (q : ℚ), 0 < w → j < vl → P.val (ρ 0 j) = some q →
        -2 ^ (w - 1) ≤ roundOf op q → roundOf op q < 2 ^ (w - 1) → (op = .floor → 0 ≤ q ∨ ∃ n : ℤ, q = n) →
          P.val (eval P vl junk ρ c j) = some (roundOf op q : ℚ) := by
  obtain ⟨c, hc, ht, he⟩ := eval_round hop
  refine ⟨c, hc, ht, ?_⟩
  intro w P vl junk ρ j q hw hj hq h1 h2 hf
  rw [he P vl junk ρ j hj]
  have hr : instrRound op q = roundOf op q := by
    rcases hop with rfl | rfl | rfl
    · rfl
    · rcases hf rfl with h | ⟨n, rfl⟩
      · simp [instrRound, roundOf, rtz, h]
      · simp [instrRound, roundOf, rtz_int]
    · rfl
  rw [← hr] at h1 h2 ⊢
  have hn : |(instrRound op q : ℚ) - q| < 1 := by
    rcases hop with rfl | rfl | rfl
    · exact rne_near q
    · exact rtz_near q
    · exact rtz_near q
  have hi := cvt_toInt hw P (instrRound op) hq h1 h2
  by_cases hs : |instrRound op q| ≤ 2 ^ P.p
  · have := P.ofInt_small (cvt P (instrRound op) (ρ 0 j)) (by rw [hi]; exact hs)
    rwa [hi] at this
  · have hs' : (2 : ℤ) ^ P.p + 1 ≤ |instrRound op q| := by omega
    have hs'' : (2 : ℚ) ^ P.p + 1 ≤ |(instrRound op q : ℚ)| := by exact_mod_cast hs'
    have habs := abs_sub_abs_le_abs_sub (instrRound op q : ℚ) q
    obtain ⟨n, hqn⟩ := P.large _ q hq (by linarith)
    have hint : instrRound op q = n := by
      rw [hqn]
      rcases hop with rfl | rfl | rfl
      · exact rne_int n
      · exact rtz_int n
      · exact rtz_int n
    have := P.ofInt_exact (cvt P (instrRound op) (ρ 0 j)) (ρ 0 j) (by rw [hi, hint, hq, hqn])
    rwa [hi] at this

/-- The floor of a negative number that is not an integer is one too large. -/
theorem C124_floor_wrong :
    ∃ c, gen (.un .floor (.vec .i) (.opd 0 (.vec .f))) = some c ∧ typ (fun _ => .vec .f) c = some (.vec .i) ∧
      ∀ {w : ℕ} (P : Fp w) (vl : ℕ) (junk : Intr → ℕ → BitVec w) (ρ : ℕ → ℕ → BitVec w) (j : ℕ) (q : ℚ), 0 < w → j < vl → P.val (ρ 0 j) = some q →
        q < 0 → (∀ n : ℤ, q ≠ n) → -2 ^ (w - 1) ≤ ⌊q⌋ → (eval P vl junk ρ c j).toInt = ⌊q⌋ + 1 := by
  refine ⟨_, rfl, rfl, ?_⟩
  intro w P vl junk ρ j q hw hj hq hneg hni hlow
  have hr : rtz q = ⌊q⌋ + 1 := by
    unfold rtz
    rw [if_neg (not_le.2 hneg), Int.ceil_eq_iff]
    push_cast
    exact ⟨by linarith [lt_of_le_of_ne (Int.floor_le q) (fun h => hni _ h.symm)], (Int.lt_floor_add_one q).le⟩
  have hlt : ⌊q⌋ < 0 := Int.floor_lt.2 (by simpa using hneg)
  have hp : (0 : ℤ) < 2 ^ (w - 1) := by positivity
  have := cvt_toInt hw P rtz hq (by omega) (by omega)
  simpa [eval, run, hj, hr] using this

/-- The conversion of floats to integers rounds to nearest: it is not the C conversion for each number whose fractional part is over one half. -/
theorem C124_conversion_wrong :
    ∃ c, gen (.un .conv (.vec .i) (.opd 0 (.vec .f))) = some c ∧ typ (fun _ => .vec .f) c = some (.vec .i) ∧
      ∀ {w : ℕ} (P : Fp w) (vl : ℕ) (junk : Intr → ℕ → BitVec w) (ρ : ℕ → ℕ → BitVec w) (j : ℕ) (q : ℚ), 0 < w → j < vl → P.val (ρ 0 j) = some q →
        -2 ^ (w - 1) ≤ rne q → rne q < 2 ^ (w - 1) → (eval P vl junk ρ c j).toInt = rne q ∧ (1 / 2 < |q - rtz q| → (eval P vl junk ρ c j).toInt ≠ rtz q) := by
  refine ⟨_, rfl, rfl, ?_⟩
  intro w P vl junk ρ j q hw hj hq h1 h2
  have h := cvt_toInt hw P rne hq h1 h2
  have h' : (eval P vl junk ρ (.c1 ⟨.cvtXF, false, .i⟩ (.opd 0)) j).toInt = rne q := by simpa [eval, run, hj] using h
  refine ⟨h', ?_⟩
  intro hf he
  have he' : rne q = rtz q := h'.symm.trans he
  rw [← he'] at hf
  exact absurd hf (not_lt.2 (rne_half q))

/-- Numbers beyond the signed integers of the width, which are integers, are all rounded to the same number: two different ones get the same result, so for one of them it is not
the number itself. -/
theorem C124_large_wrong {op : Op} (hop : op = .nearest ∨ op = .floor ∨ op = .trunc) :
    ∃ c, gen (.un op (.vec .f) (.opd 0 (.vec .f))) = some c ∧
      ∀ {w : ℕ} (P : Fp w) (vl : ℕ) (junk : Intr → ℕ → BitVec w) (ρ : ℕ → ℕ → BitVec w) (j j' : ℕ) (n n' : ℤ), j < vl → j' < vl →
        P.val (ρ 0 j) = some (n : ℚ) → P.val (ρ 0 j') = some (n' : ℚ) → 2 ^ (w - 1) ≤ n → 2 ^ (w - 1) ≤ n' →
          roundOf op n = n ∧ roundOf op n' = n' ∧ eval P vl junk ρ c j = eval P vl junk ρ c j' := by
  obtain ⟨c, hc, _, he⟩ := eval_round hop
  refine ⟨c, hc, ?_⟩
  intro w P vl junk ρ j j' n n' hj hj' hn hn' h1 h2
  have hsat : ∀ (m : ℤ) (k : ℕ), P.val (ρ 0 k) = some (m : ℚ) → 2 ^ (w - 1) ≤ m →
      cvt P (instrRound op) (ρ 0 k) = BitVec.ofInt w (max (-2 ^ (w - 1)) (2 ^ (w - 1) - 1)) := by
    intro m k hk hm
    have hint : instrRound op m = m := by
      rcases hop with rfl | rfl | rfl
      · exact rne_int m
      · exact rtz_int m
      · exact rtz_int m
    unfold cvt
    rw [hk]
    show BitVec.ofInt w (max (-2 ^ (w - 1)) (min (2 ^ (w - 1) - 1) (instrRound op (m : ℚ)))) = _
    rw [hint, min_eq_left (by linarith)]
  have hround : ∀ m : ℤ, roundOf op m = m := by
    intro m
    rcases hop with rfl | rfl | rfl
    · exact rne_int m
    · exact Int.floor_intCast m
    · exact rtz_int m
  exact ⟨hround n, hround n', by rw [he P vl junk ρ j hj, he P vl junk ρ j' hj', hsat n j hn h1, hsat n' j' hn' h2]⟩

/-- The negation of unsigned numbers as signed ones is right exactly up to `2^(w-1)`. -/
theorem C124_negation :
    ∃ c, gen (.un .neg (.vec .i) (.opd 0 (.vec .u))) = some c ∧ typ (fun _ => .vec .u) c = some (.vec .i) ∧
      ∀ {w : ℕ} (P : Fp w) (vl : ℕ) (junk : Intr → ℕ → BitVec w) (ρ : ℕ → ℕ → BitVec w) (j : ℕ), 0 < w → j < vl →
        ((eval P vl junk ρ c j).toInt = -((ρ 0 j).toNat : ℤ) ↔ (ρ 0 j).toNat ≤ 2 ^ (w - 1)) := by
  refine ⟨_, rfl, rfl, ?_⟩
  intro w P vl junk ρ j hw hj
  have he : eval P vl junk ρ (.c1 ⟨.neg, false, .i⟩ (.c1 ⟨.reinterpret .u, false, .i⟩ (.opd 0))) j = -(ρ 0 j) := by simp [eval, run, hj]
  have hx : -(ρ 0 j) = BitVec.ofInt w (-((ρ 0 j).toNat : ℤ)) := by
    rw [BitVec.ofInt_neg, BitVec.ofInt_natCast, BitVec.ofNat_toNat, BitVec.setWidth_eq]
  show (eval P vl junk ρ (.c1 ⟨.neg, false, .i⟩ (.c1 ⟨.reinterpret .u, false, .i⟩ (.opd 0))) j).toInt = -((ρ 0 j).toNat : ℤ) ↔ _
  rw [he]
  constructor
  · intro h
    have := BitVec.le_toInt (-(ρ 0 j))
    rw [h] at this
    have h' : ((ρ 0 j).toNat : ℤ) ≤ 2 ^ (w - 1) := by linarith
    exact_mod_cast h'
  · intro h
    have h' : ((ρ 0 j).toNat : ℤ) ≤ 2 ^ (w - 1) := by exact_mod_cast h
    have hp : (0 : ℤ) < 2 ^ (w - 1) := by positivity
    rw [hx]
    exact BitVec.toInt_ofInt_eq_self hw (by linarith) (by omega)

/-- Among the operations of the table, each of these has a combination of formats whose expression does not compile. -/
theorem C124_function_wrong : ∀ op ∈ [Op.fma, .fms, .fnms, .sra, .min, .max, .neg, .conv], ∃ e ∈ table, e.op = op ∧
    ∃ c, alone e = some c ∧ typ (fun n => e.ins.getD n .mask) c = none := by
  have h : ∀ op ∈ [Op.fma, .fms, .fnms, .sra, .min, .max, .neg, .conv],
      table.any (fun e => decide (e.op = op) && (alone e).any fun c => decide (typ (fun n => e.ins.getD n .mask) c = none)) = true := by decide +kernel
  intro op hop
  obtain ⟨e, he, h'⟩ := List.any_eq_true.1 (h op hop)
  rw [Bool.and_eq_true, decide_eq_true_eq] at h'
  refine ⟨e, he, h'.1, ?_⟩
  rcases ha : alone e with _ | c
  · simp [ha] at h'
  · refine ⟨c, rfl, ?_⟩
    have := h'.2
    rw [ha, Option.any_some] at this
    exact of_decide_eq_true this

/-! ## Indexed loads -/

/-- A lane of an indexed load reads the element of its index, for tables whose elements have the width of the index, exactly when the byte offset is one of the type of the
index. -/
theorem C124_index (base : ℕ) (i : BitVec w) : loadAddr base i = base + i.toNat * (w / 8) ↔ i.toNat * (w / 8) < 2 ^ w := by
  have hk : w / 8 < 2 ^ w := lt_of_le_of_lt (Nat.div_le_self w 8) Nat.lt_two_pow_self
  unfold loadAddr
  rw [BitVec.toNat_mul, BitVec.toNat_ofNat, Nat.mod_eq_of_lt hk]
  constructor
  · intro h
    have : i.toNat * (w / 8) % 2 ^ w = i.toNat * (w / 8) := by omega
    exact this ▸ Nat.mod_lt _ (by positivity)
  · intro h
    rw [Nat.mod_eq_of_lt h]

/-- With elements of another size, each lane whose index is not 0 reads at a wrong address. -/
theorem C124_index_wrong (base size : ℕ) (hs : size ≠ w / 8) (i : BitVec w) (hi : 0 < i.toNat) (h : i.toNat * (w / 8) < 2 ^ w) :
    loadAddr base i ≠ base + i.toNat * size := by
  rw [(C124_index base i).2 h]
  intro he
  exact hs (Nat.eq_of_mul_eq_mul_left hi (by omega)).symm

/-! ## The reciprocal table -/

theorem rec7_check : ∀ i < 128, ∃ v, rec7Data[i]? = some v ∧ v < 128 ∧ (128 + v) * (129 + i) * 512 ≤ 32768 * 515 ∧ 32768 * 509 ≤ (128 + v) * (128 + i) * 512 := by
  have h : ∀ i < 128, (rec7Data[i]?).any (fun v => decide (v < 128 ∧ (128 + v) * (129 + i) * 512 ≤ 32768 * 515 ∧ 32768 * 509 ≤ (128 + v) * (128 + i) * 512)) = true := by
    decide +kernel
  intro i hi
  have := h i hi
  rcases hv : rec7Data[i]? with _ | v
  · simp [hv] at this
  · refine ⟨v, rfl, ?_⟩
    rw [hv, Option.any_some] at this
    exact of_decide_eq_true this

/-- For each number in [1, 2), the entry of the table at its 7 leading fraction bits is its reciprocal to within a relative error of `3/4 · 2^-7`, and has 8 bits. -/
theorem C124_seed (x : ℝ) (h1 : 1 ≤ x) (h2 : x < 2) :
    ∃ t : ℚ, rec7Table[⌊(x - 1) * 128⌋₊]? = some t ∧ |x * t - 1| ≤ 3 / 4 * (1 / 2 ^ 7) ∧ ∃ n : ℕ, n < 2 ^ 8 ∧ t = n / 2 ^ 8 := by
  obtain ⟨i, hi⟩ : ∃ i, i = ⌊(x - 1) * 128⌋₊ := ⟨_, rfl⟩
  have hpos : 0 ≤ (x - 1) * 128 := by linarith
  have hl : (i : ℝ) ≤ (x - 1) * 128 := by rw [hi]; exact Nat.floor_le hpos
  have hu : (x - 1) * 128 < i + 1 := by rw [hi]; exact Nat.lt_floor_add_one _
  have hi' : i < 128 := by
    have : (i : ℝ) < 128 := by linarith
    exact_mod_cast this
  obtain ⟨v, hv, hv1, hv2, hv3⟩ := rec7_check i hi'
  rw [← hi]
  refine ⟨(1 + v / 128) / 2, by simp [rec7Table, hv], ?_, 128 + v, by omega, by push_cast; ring⟩
  have e2 : ((128 + v) * (129 + i) * 512 : ℝ) ≤ 32768 * 515 := by exact_mod_cast hv2
  have e3 : (32768 * 509 : ℝ) ≤ (128 + v) * (128 + i) * 512 := by exact_mod_cast hv3
  have hvp : (0 : ℝ) ≤ 128 + v := by positivity
  push_cast
  rw [abs_le]
  have hxl : (128 + i : ℝ) ≤ 128 * x := by linarith
  have hxu : 128 * x ≤ (129 + i : ℝ) := by linarith
  have m1 := mul_le_mul_of_nonneg_left hxl hvp
  have m2 := mul_le_mul_of_nonneg_left hxu hvp
  constructor <;> nlinarith

/-! ## The hypotheses are met -/

/-- a 4-bit floating-point format: sign, and the magnitudes 0, 1/2, 1, 3/2, 2, 3, 4, 6 -/
def miniVal (x : BitVec 4) : ℚ :=
  let m : ℕ := [0, 1, 2, 3, 4, 6, 8, 12].getD (x.toNat % 8) 0
  if x.toNat < 8 then m / 2 else -(m / 2)

def miniOf (n : BitVec 4) : BitVec 4 := (((List.range 16).map (BitVec.ofNat 4)).find? fun y => decide (miniVal y = (n.toInt : ℚ))).getD 0

def mini : Fp 4 where
  add := (· + ·)
  sub := (· - ·)
  mul := (· * ·)
  min := (· &&& ·)
  max := (· ||| ·)
  fma x y z := x * y + z
  neg x := x ^^^ 8
  abs x := x &&& 7
  rec7 x := x
  less x y := decide (miniVal x < miniVal y)
  val x := some (miniVal x)
  special x := x
  ofInt := miniOf
  ofNat := miniOf
  p := 2
  add_comm := BitVec.add_comm
  mul_comm := BitVec.mul_comm
  min_comm := BitVec.and_comm
  max_comm := BitVec.or_comm
  fma_comm x y z := by rw [BitVec.mul_comm]
  ofInt_small := by decide +kernel
  ofInt_exact := by decide +kernel
  large := by
    have h : ∀ x : BitVec 4, 2 ^ 2 ≤ |miniVal x| → (miniVal x).den = 1 := by decide +kernel
    intro x q hq hl
    obtain rfl := Option.some.inj hq
    exact ⟨(miniVal x).num, ((Rat.den_eq_one_iff _).1 (h x hl)).symm⟩

/-- an expression of three operations, with a scalar that is replicated, meets the hypotheses, and has a value -/
example : let t : Tm := .ter .fma (.vec .f) (.opd 0 (.vec .f)) (.opd 1 (.sca .f)) (.un .conv (.vec .f) (.bin .srl (.vec .i) (.opd 2 (.vec .i)) (.opd 3 (.sca .i))))
    WF (fun k => [.vec .f, .sca .f, .vec .i, .sca .i].getD k .mask) t ∧ den mini (fun k _ => [2, 4, 12, 1].getD k 0) 0 t = some (2 * 4 + miniOf 6) := by
  refine ⟨⟨rfl, rfl, ⟨⟨rfl, rfl, ⟨⟨.srl, .vec .i, [.vec .i, .sca .i], .castBoth .u⟩, ?_, rfl, rfl, rfl⟩, rfl⟩, ⟨ent .conv (.vec .f) [.vec .i] .cvtFX false .f, ?_, rfl, rfl, rfl⟩, rfl⟩,
    ⟨ent .fma (.vec .f) [.vec .f, .sca .f, .vec .f] .fmadd true .f, ?_, rfl, rfl, rfl⟩, rfl⟩, by decide +kernel⟩
  all_goals simp [table, addRows, subRows, logicRows, mulRows, fmaRows, negRows, shiftRows, convRows, selectRows, minRows, ints, kinds, castTo, ent]

/-- -3/2 meets the hypotheses of the floor; 3/2 those of the roundings -/
example : mini.val 11 = some (-3 / 2) ∧ (-3 / 2 : ℚ) < 0 ∧ -2 ^ (4 - 1) ≤ ⌊(-3 / 2 : ℚ)⌋ ∧ mini.val 3 = some (3 / 2) ∧ rne (3 / 2) = 2 := by
  refine ⟨by decide +kernel, by norm_num, by norm_num [Int.le_floor], by decide +kernel, by decide +kernel⟩

end Verif.Rvv
