import Mathlib.Data.Real.Basic
import Mathlib.Tactic.Ring
import Mathlib.Tactic.Linarith
import Mathlib.Tactic.FieldSimp
import Mathlib.Tactic.Positivity

/-!
A small verified checker for positivity of integer polynomials on `[0,1]`
(coefficient lists, lowest degree first).  Used for the error analysis of `_CND`.
-/
namespace Verif.PolyCheck

/-- Value of a coefficient list at a real point. -/
def ev : List ℤ → ℝ → ℝ
  | [], _ => 0
  | a :: q, x => a + x * ev q x

def add : List ℤ → List ℤ → List ℤ
  | [], q => q
  | p, [] => p
  | a :: p, b :: q => (a + b) :: add p q

def smul (c : ℤ) : List ℤ → List ℤ
  | [] => []
  | a :: p => c * a :: smul c p

def mul : List ℤ → List ℤ → List ℤ
  | [], _ => []
  | a :: p, q => add (smul a q) (0 :: mul p q)

def pow (p : List ℤ) : ℕ → List ℤ
  | 0 => [1]
  | n + 1 => mul (pow p n) p

/-- Formal derivative, starting with exponent `n`. -/
def derivFrom : ℕ → List ℤ → List ℤ
  | _, [] => []
  | n, a :: p => (n : ℤ) * a :: derivFrom (n + 1) p

/-- `p(x + m)`. -/
def shift (m : ℤ) : List ℤ → List ℤ
  | [] => []
  | a :: p => let q := shift m p; add [a] (add (0 :: q) (smul m q))

/-- `D ^ deg * p(x / D)`. -/
def homog (D : ℤ) : List ℤ → List ℤ
  | [] => []
  | a :: p => a * D ^ p.length :: homog D p

/-- A lower bound for the values on `[0,1]`. -/
def lowb : List ℤ → ℤ
  | [] => 0
  | a :: p => a + min 0 (lowb p)

/-- Positivity check on `[0,1]` by bisection, to depth `n`. -/
def check : ℕ → List ℤ → Bool
  | 0, p => decide (0 < lowb p)
  | n + 1, p => decide (0 < lowb p) ||
      (check n (homog 2 p) && check n (shift 1 (homog 2 p)))

theorem ev_add (p q : List ℤ) (x : ℝ) : ev (add p q) x = ev p x + ev q x := by
  induction p generalizing q with
  | nil => simp [add, ev]
  | cons a p ih =>
    cases q with
    | nil => simp [add, ev]
    | cons b q => simp [add, ev, ih]; ring

theorem ev_smul (c : ℤ) (p : List ℤ) (x : ℝ) : ev (smul c p) x = c * ev p x := by
  induction p with
  | nil => simp [smul, ev]
  | cons a p ih => simp [smul, ev, ih]; ring

theorem ev_mul (p q : List ℤ) (x : ℝ) : ev (mul p q) x = ev p x * ev q x := by
  induction p with
  | nil => simp [mul, ev]
  | cons a p ih => simp [mul, ev, ev_add, ev_smul, ih]; ring

theorem ev_pow (p : List ℤ) (n : ℕ) (x : ℝ) : ev (pow p n) x = ev p x ^ n := by
  induction n with
  | zero => simp [pow, ev]
  | succ n ih => simp [pow, ev_mul, ih, pow_succ]

theorem ev_shift (m : ℤ) (p : List ℤ) (x : ℝ) : ev (shift m p) x = ev p (x + m) := by
  induction p with
  | nil => simp [shift, ev]
  | cons a p ih => simp [shift, ev, ev_add, ev_smul, ih]; ring

theorem ev_homog (D : ℤ) (a : ℤ) (p : List ℤ) (x : ℝ) :
    ev (homog D (a :: p)) (D * x) = D ^ p.length * ev (a :: p) x := by
  induction p generalizing a with
  | nil => simp [homog, ev]
  | cons b p ih =>
    have := ih b
    rw [homog, ev, this]
    simp only [ev, List.length_cons]
    push_cast; ring

theorem lowb_le (p : List ℤ) (u : ℝ) (h0 : 0 ≤ u) (h1 : u ≤ 1) : (lowb p : ℝ) ≤ ev p u := by
  induction p with
  | nil => simp [lowb, ev]
  | cons a p ih =>
    simp only [lowb, ev]
    push_cast
    have h2 : min (0:ℝ) (lowb p) ≤ u * ev p u := by
      rcases le_total 0 (lowb p : ℝ) with h | h
      · rw [min_eq_left h]; exact mul_nonneg h0 (h.trans ih)
      · rw [min_eq_right h]
        calc (lowb p : ℝ) ≤ u * lowb p := by nlinarith
          _ ≤ u * ev p u := mul_le_mul_of_nonneg_left ih h0
    linarith

theorem ev_homog_pos {p : List ℤ} {x : ℝ} (h : 0 < ev (homog 2 p) (2 * x)) : 0 < ev p x := by
  cases p with
  | nil => simp [homog, ev] at h
  | cons a p =>
    have e := ev_homog 2 a p x
    push_cast at e
    rw [e] at h
    exact (mul_pos_iff_of_pos_left (by positivity)).1 h

/-- Soundness of the checker. -/
theorem check_sound {n : ℕ} {p : List ℤ} (h : check n p = true) {k : ℝ}
    (h0 : 0 ≤ k) (h1 : k ≤ 1) : 0 < ev p k := by
  induction n generalizing p k with
  | zero =>
    simp only [check, decide_eq_true_eq] at h
    exact lt_of_lt_of_le (by exact_mod_cast h) (lowb_le p k h0 h1)
  | succ n ih =>
    simp only [check, Bool.or_eq_true, decide_eq_true_eq, Bool.and_eq_true] at h
    rcases h with h | ⟨hl, hr⟩
    · exact lt_of_lt_of_le (by exact_mod_cast h) (lowb_le p k h0 h1)
    · rcases le_total k (1 / 2) with hk | hk
      · exact ev_homog_pos (ih hl (by linarith) (by linarith))
      · have := ih hr (k := 2 * k - 1) (by linarith) (by linarith)
        rw [ev_shift] at this
        refine ev_homog_pos ?_
        convert this using 2
        push_cast; ring

end Verif.PolyCheck
