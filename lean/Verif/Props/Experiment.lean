import Verif.Props.VariantPick
import Verif.Props.Expr

/-!
# C77: the recursion of t/320 writes expressions
-/

namespace BS
open BlobLike

/-! ## The blob as a list of bytes -/

theorem sim_catchOOD {α : Type} {m h : M Blob α} {m' h' : M ABlob α} (hm : Sim BR Eq m m') (hh : Sim BR Eq h h') :
    Sim BR Eq (M.catchOOD m h) (M.catchOOD m' h') := by
  intro s s' hs
  have h1 := hm s s' hs
  unfold M.catchOOD
  rcases e : m s with ⟨o, t⟩
  rcases e' : m' s' with ⟨o', t'⟩
  rw [e, e'] at h1
  obtain ⟨ho, ht⟩ := h1
  simp only at ho ht
  cases ho with
  | ok hq => exact ⟨.ok hq, ht⟩
  | outOfData => exact hh t t' ht
  | ub r => exact ⟨.ub r, ht⟩
  | abort => exact ⟨.abort, ht⟩
  | fuel => exact ⟨.fuel, ht⟩

theorem sim_unsignedV (t : ArithTy) : Sim BR Eq (unsignedV t) (unsignedV t) := by
  unfold unsignedV
  refine Sim.bind (sim_extractValue t) ?_
  rintro a _ rfl
  cases a <;> exact Sim.pure rfl

theorem sim_experiment (n : Nat) : Sim BR Eq (experiment n) (experiment n) := by
  induction n with
  | zero => exact Sim.out .fuel
  | succ n ih =>
    unfold experiment
    refine Sim.bind (sim_catchOOD (Sim.bind (sim_unsignedV _) fun a _ h => Sim.pure (by rw [h])) (Sim.pure rfl)) ?_
    rintro c _ rfl
    cases c with
    | none => exact Sim.pure rfl
    | some c =>
      refine Sim.bind Sim.lift ?_
      rintro p _ rfl
      refine Sim.bind Sim.get fun b a hba => ?_
      refine Sim.ite (by rw [hba.size]) (fun _ => sim_catchOOD (sim_extractArithStr _) (Sim.pure rfl)) fun _ => ?_
      refine Sim.bind (sim_catchOOD (Sim.bind (sim_unsignedV _) fun a _ h => Sim.pure (by rw [h])) (Sim.pure rfl)) ?_
      rintro spl _ rfl
      cases spl with
      | none => exact Sim.pure rfl
      | some spl =>
        refine Sim.bind Sim.get fun b a hba => ?_
        rw [hba.size]
        refine Sim.bind Sim.lift ?_
        rintro sizes _ rfl
        refine Sim.bind Sim.lift ?_
        rintro s0 _ rfl
        refine Sim.bind (sim_chop _) fun l l' hl => ?_
        refine Sim.bind Sim.lift ?_
        rintro op _ rfl
        refine Sim.bind (Q := Eq) (fun s s' hs => ⟨(ih l l' hl).1, hs⟩) ?_
        rintro x _ rfl
        refine Sim.bind ih ?_
        rintro y _ rfl
        exact Sim.pure rfl

/-- What the recursion returns on a blob does so on its bytes, and conversely. -/
theorem experiment_holds {b : Blob} {bs : Bytes} (hr : Reachable b) (hh : Holds b bs) (n : Nat) :
    (experiment n b).1 = (experiment n (bs : ABlob)).1 := by
  have hb : b.abs = bs := (holds_iff hr.valid bs).1 hh
  have := (sim_experiment n b b.abs ⟨hr.valid, rfl⟩).1.eq
  rw [hb] at this
  exact this

/-! ## One call -/

theorem exp_nil (n : Nat) : experiment (n + 1) ([] : ABlob) = (.ok (str "0"), []) := by
  unfold experiment
  rfl

theorem pick5 (c : UInt8) : ∃ q < 5, variantPicker [5] c = .ok ⟨0, 0, q⟩ ∧
    255 * q ≤ c.toNat * 5 ∧ c.toNat * 5 ≤ 255 * (q + 1) := by
  obtain ⟨p, d, e, h1, h2, h3, h4⟩ := C76_pick (counts := [5]) (by decide) (by decide) c
  obtain ⟨p', e', h5⟩ := C76_returned_partial (counts := [5]) (c := 5) (by decide) rfl (by decide) c
  rw [e] at e'
  cases e'
  have hm : p.marked = 0 := by
    by_contra h
    have : ([5] : List Nat)[p.marked]? = none := by simp; omega
    rw [this] at h1; cases h1
  rw [hm] at h1 h3 h4
  cases h1
  refine ⟨p.variant, h2, ?_, by simpa using h3, by simpa using h4⟩
  rw [e]
  cases p
  simp only at hm h5
  subst hm h5
  rfl

theorem unsignedV_u8 (v : UInt8) (rest : Bytes) : (unsignedV .u8 : M ABlob Nat) (v :: rest) = (.ok v.toNat, rest) := by
  unfold unsignedV
  have h := extractValue_abs .u8 (v :: rest)
  have e : ArithTy.u8.size = 1 := rfl
  rw [e, if_neg (by simp)] at h
  rw [M.bind_ok h]
  simp [decode, ArithTy.isInt, ArithTy.isSigned, leNat]

theorem unsignedV_u16 {a : ABlob} (h : 2 ≤ a.length) : (unsignedV .u16 : M ABlob Nat) a = (.ok (leNat (a.take 2)), a.drop 2) := by
  have := oracle_abs a
  rw [if_neg (by omega)] at this
  exact this

theorem catchOOD_ok {σ α : Type} {m h : M σ α} {s s' : σ} {a : α} (e : m s = (.ok a, s')) :
    M.catchOOD m h s = (.ok a, s') := by
  unfold M.catchOOD; rw [e]

theorem exp_one (n : Nat) (c : UInt8) : experiment (n + 1) ([c] : ABlob) = (.ok (str "Q"), []) := by
  obtain ⟨q, -, e, -⟩ := pick5 c
  unfold experiment
  rw [M.bind_ok (catchOOD_ok (a := some c.toNat) (s' := []) (by rw [M.bind_ok (unsignedV_u8 c [])]; rfl))]
  dsimp only
  have e' : variantPicker [recOps.length] (UInt8.ofNat c.toNat) = .ok ⟨0, 0, q⟩ := by
    rw [UInt8.ofNat_toNat]; exact e
  rw [M.bind_ok (a := (⟨0, 0, q⟩ : Picked)) (s' := []) (by rw [e']; rfl)]
  rfl

theorem exp_leaf (n : Nat) (c v : UInt8) {r : Bytes} (hr : r.length < 5) :
    experiment (n + 1) (c :: v :: r : ABlob) = (.ok (Expr.num v).text, r) := by
  obtain ⟨q, -, e, -⟩ := pick5 c
  unfold experiment
  rw [M.bind_ok (catchOOD_ok (a := some c.toNat) (s' := v :: r) (by rw [M.bind_ok (unsignedV_u8 c (v :: r))]; rfl))]
  dsimp only
  have e' : variantPicker [recOps.length] (UInt8.ofNat c.toNat) = .ok ⟨0, 0, q⟩ := by
    rw [UInt8.ofNat_toNat]; exact e
  rw [M.bind_ok (a := (⟨0, 0, q⟩ : Picked)) (s' := v :: r) (by rw [e']; rfl)]
  rw [M.bind_ok (m := M.get) (a := (v :: r : ABlob)) (s' := v :: r) rfl]
  have hlt : size (v :: r : ABlob) < 6 := by show (v :: r).length < 6; simp; omega
  rw [if_pos hlt]
  refine catchOOD_ok ?_
  rw [extractArithStr_abs]
  have h : ArithTy.u8.size = 1 := rfl
  rw [h, if_neg (by simp)]
  have : toStringPrecise .u8 (decode .u8 ((v :: r).take 1)) = .ok (intDec (v.toNat : Int)) := by
    simp [toStringPrecise, decode, ArithTy.isInt, ArithTy.isSigned, leNat]
  rw [this, u8_text]; rfl

/-- A call with seven bytes or more, when the bytes after the first three are cut into `l` and `r`. -/
theorem exp_bin {n : Nat} {c : UInt8} {a : ABlob} {q k : Nat} {x y : Bytes} {t : ABlob} (hq : q < 5)
    (hc : variantPicker [5] c = .ok ⟨0, 0, q⟩) (ha : 6 ≤ a.length) (ha' : a.length < 2147483648)
    (hk : ∃ k', fitSizes [leNat (a.take 2), 65535 - leNat (a.take 2)] (a.length - 6) = .ok [k, k'])
    (hkle : k ≤ a.length - 6)
    (hx : (experiment n (((a.drop 2).take (k + 2) : Bytes) : ABlob)).1 = .ok x)
    (hy : experiment n (((a.drop 2).drop (k + 2) : Bytes) : ABlob) = (.ok y, t)) :
    experiment (n + 1) (c :: a : ABlob) = (.ok (str "(" ++ x ++ str " " ++ recOps[q] ++ str " " ++ y ++ str ")"), t) := by
  obtain ⟨k', hk⟩ := hk
  rw [experiment]
  rw [M.bind_ok (catchOOD_ok (a := some c.toNat) (s' := a) (by rw [M.bind_ok (unsignedV_u8 c a)]; rfl))]
  dsimp only
  have e' : variantPicker [recOps.length] (UInt8.ofNat c.toNat) = .ok ⟨0, 0, q⟩ := by
    rw [UInt8.ofNat_toNat]; exact hc
  rw [M.bind_ok (a := (⟨0, 0, q⟩ : Picked)) (s' := a) (by rw [e']; rfl)]
  rw [M.bind_ok (m := M.get) (a := a) (s' := a) rfl]
  have hlt : ¬ size (a : ABlob) < 6 := by show ¬ a.length < 6; omega
  rw [if_neg hlt]
  rw [M.bind_ok (catchOOD_ok (a := some (leNat (a.take 2))) (s' := a.drop 2)
    (by rw [M.bind_ok (unsignedV_u16 (by omega))]; rfl))]
  dsimp only
  rw [M.bind_ok (m := M.get) (a := (a.drop 2 : ABlob)) (s' := a.drop 2) rfl]
  have hsz : toSz ((size (a.drop 2 : ABlob) : Int) - 4) % 4294967296 = a.length - 6 := by
    have : size (a.drop 2 : ABlob) = a.length - 2 := by show (a.drop 2).length = _; simp
    rw [this, toSz_of_nonneg (by omega) (by omega)]
    omega
  rw [hsz, M.bind_ok (a := [k, k']) (s' := a.drop 2) (by rw [hk]; rfl)]
  rw [M.bind_ok (m := M.lift (vecGet [k, k'] 0)) (a := k) (s' := a.drop 2) rfl]
  have hmod : (k + 2) % 4294967296 = k + 2 := by omega
  have hch : (chop ((k + 2) % 4294967296) : M ABlob ABlob) (a.drop 2) =
      (.ok ((a.drop 2).take (k + 2)), (a.drop 2).drop (k + 2)) := by
    rw [hmod]
    show (if (a.drop 2).length < k + 2 then _ else _) = _
    rw [if_neg (by rw [List.length_drop]; omega)]
  rw [M.bind_ok hch]
  have hop : vecGet recOps (q : Int) = .ok recOps[q] := by
    unfold vecGet
    rw [toSz_of_nonneg (by omega) (by omega), Int.toNat_natCast, List.getElem?_eq_getElem hq]
  rw [M.bind_ok (a := recOps[q]) (s' := (a.drop 2).drop (k + 2)) (by rw [hop]; rfl)]
  rw [M.bind_ok (a := x) (s' := (a.drop 2).drop (k + 2)) (by unfold M.onOther; rw [hx])]
  rw [M.bind_ok hy]
  rfl

/-! ## Always an expression -/

theorem exp_total (N : Nat) : ∀ bs : Bytes, bs.length ≤ N → 2 ≤ bs.length → bs.length < 2147483648 →
    ∃ (e : Expr) (t : Bytes), e.Over recOps [] ∧ 5 * e.leaves ≤ bs.length + 3 ∧ bs.length + 3 ≤ 9 * e.leaves ∧
      ∀ n, N ≤ n → experiment n (bs : ABlob) = (.ok e.text, t) := by
  induction N with
  | zero => intro bs h h'; omega
  | succ N ih =>
    intro bs hN h2 hS
    match bs with
    | [] => simp at h2
    | [_] => simp at h2
    | c :: v :: r =>
      by_cases hr : r.length < 5
      · simp only [List.length_cons] at *
        refine ⟨.num v, r, trivial, by show 5 * 1 ≤ _; omega, by show _ ≤ 9 * 1; omega, fun n hn => ?_⟩
        obtain ⟨m, rfl⟩ : ∃ m, n = m + 1 := ⟨n - 1, by omega⟩
        exact exp_leaf m c v hr
      · have hlen : 6 ≤ (v :: r).length := by simp; omega
        generalize v :: r = a at *
        rw [List.length_cons] at *
        obtain ⟨q, hq, hc, -⟩ := pick5 c
        have hs : leNat (a.take 2) ≤ 65535 := leNat_two a
        obtain ⟨k, k', hk, hkk⟩ := C75_two hs (fit := a.length - 6) (by omega)
        have l1 : ((a.drop 2).take (k + 2)).length = k + 2 := by
          rw [List.length_take, List.length_drop]; omega
        have l2 : ((a.drop 2).drop (k + 2)).length = k' + 2 := by
          rw [List.length_drop, List.length_drop]; omega
        obtain ⟨e1, t1, o1, a1, b1, r1⟩ := ih ((a.drop 2).take (k + 2)) (by omega) (by omega) (by omega)
        obtain ⟨e2, t2, o2, a2, b2, r2⟩ := ih ((a.drop 2).drop (k + 2)) (by omega) (by omega) (by omega)
        refine ⟨.bin recOps[q] e1 e2, t2, ⟨List.getElem_mem hq, o1, o2⟩, ?_, ?_, fun n hn => ?_⟩
        · show 5 * (e1.leaves + e2.leaves) ≤ _; omega
        · show _ ≤ 9 * (e1.leaves + e2.leaves); omega
        · obtain ⟨m, rfl⟩ : ∃ m, n = m + 1 := ⟨n - 1, by omega⟩
          have hm : N ≤ m := by omega
          exact exp_bin hq hc (by omega) (by omega) ⟨k', hk⟩ (by omega) (by rw [r1 m hm]) (r2 m hm)

/-- The outcome of the recursion on a blob: what it returns once calls may be deep enough. -/
def Recursion (b : Blob) (o : Out Bytes) : Prop := ∃ N, ∀ n, N ≤ n → (experiment n b).1 = o

/-- **C77.** The recursion returns "0" on an empty blob, "Q" on a blob of one byte, and on every blob of 2 to 2^31-1 bytes the text
of an expression of numbers below 256 and the five operators: it ends, and never returns "Z", stops the program or
breaks a rule of the language. An expression has a number for every 5 to 9 bytes of the blob plus three. -/
theorem C77_total {b : Blob} {bs : Bytes} (hr : Reachable b) (hh : Holds b bs) :
    (bs.length = 0 → Recursion b (.ok (str "0"))) ∧ (bs.length = 1 → Recursion b (.ok (str "Q"))) ∧
    (2 ≤ bs.length → bs.length < 2147483648 → ∃ e : Expr, e.Over recOps [] ∧ Recursion b (.ok e.text) ∧
      5 * e.leaves ≤ bs.length + 3 ∧ bs.length + 3 ≤ 9 * e.leaves) := by
  refine ⟨fun h => ⟨1, fun n hn => ?_⟩, fun h => ⟨1, fun n hn => ?_⟩, fun h1 h2 => ?_⟩
  · obtain ⟨m, rfl⟩ : ∃ m, n = m + 1 := ⟨n - 1, by omega⟩
    rw [experiment_holds hr hh, List.length_eq_zero_iff.1 h, exp_nil]
  · obtain ⟨m, rfl⟩ : ∃ m, n = m + 1 := ⟨n - 1, by omega⟩
    obtain ⟨c, rfl⟩ := List.length_eq_one_iff.1 h
    rw [experiment_holds hr hh, exp_one]
  · obtain ⟨e, t, ho, ha, hb, hx⟩ := exp_total bs.length bs le_rfl h1 h2
    exact ⟨e, ho, ⟨bs.length, fun n hn => by rw [experiment_holds hr hh, hx n hn]⟩, ha, hb⟩

theorem Recursion.unique {b : Blob} {o o' : Out Bytes} (h : Recursion b o) (h' : Recursion b o') : o = o' := by
  obtain ⟨N, h⟩ := h
  obtain ⟨N', h'⟩ := h'
  rw [← h (max N N') (by omega), ← h' (max N N') (by omega)]

/-- Ten bytes. -/
example : (experiment 10 ([30, 0, 128, 7, 42, 0, 0, 7, 43, 0] : ABlob)).1 =
    .ok (Expr.bin (str "+") (.num 42) (.num 43)).text := by decide +kernel

/-- The test's own data has 256 bytes: 29 to 51 numbers. -/
example {b : Blob} {bs : Bytes} (hr : Reachable b) (hh : Holds b bs) (hl : bs.length = 256) : ∃ e : Expr,
    Recursion b (.ok e.text) ∧ 29 ≤ e.leaves ∧ e.leaves ≤ 51 := by
  obtain ⟨e, -, h, h1, h2⟩ := (C77_total hr hh).2.2 (by omega) (by omega)
  exact ⟨e, h, by omega, by omega⟩

/-! ## Every expression -/

theorem pick5_every {q : Nat} (hq : q < 5) : variantPicker [5] (UInt8.ofNat (51 * q + 25)) = .ok ⟨0, 0, q⟩ := by
  obtain ⟨q', h1, e, h2, h3⟩ := pick5 (UInt8.ofNat (51 * q + 25))
  have ht : (UInt8.ofNat (51 * q + 25)).toNat = 51 * q + 25 := by
    simp [UInt8.toNat_ofNat']; omega
  rw [ht] at h2 h3
  have : q' = q := by omega
  rw [e, this]

/-- Any size up to `fit` can be asked for. -/
theorem fit_every {fit k : Nat} (hf : fit ≤ 64000) (hk : k ≤ fit) :
    ∃ s ≤ 65535, ∃ k', fitSizes [s, 65535 - s] fit = .ok [k, k'] := by
  have key : ∃ s ≤ 65535, 2 * (s * fit) ≤ 2 * (65535 * k) + fit ∧ 2 * (65535 * k) ≤ 2 * (s * fit) + fit := by
    rcases Nat.eq_zero_or_pos fit with h0 | h0
    · subst h0
      have : k = 0 := by omega
      subst this
      exact ⟨0, by omega, by omega, by omega⟩
    · refine ⟨(2 * (65535 * k) + fit) / (2 * fit), ?_, ?_, ?_⟩
      · have : 65535 * k ≤ 65535 * fit := Nat.mul_le_mul_left _ hk
        rw [← Nat.lt_add_one_iff, Nat.div_lt_iff_lt_mul (by omega)]
        omega
      · have := Nat.div_mul_le_self (2 * (65535 * k) + fit) (2 * fit)
        have e : (2 * (65535 * k) + fit) / (2 * fit) * (2 * fit) = 2 * ((2 * (65535 * k) + fit) / (2 * fit) * fit) := by ring
        omega
      · have h1 := Nat.div_add_mod (2 * (65535 * k) + fit) (2 * fit)
        have h2 := Nat.mod_lt (2 * (65535 * k) + fit) (show 0 < 2 * fit by omega)
        have e : 2 * fit * ((2 * (65535 * k) + fit) / (2 * fit)) = 2 * ((2 * (65535 * k) + fit) / (2 * fit) * fit) := by ring
        omega
  obtain ⟨s, hs, h1, h2⟩ := key
  refine ⟨s, hs, ?_⟩
  obtain ⟨l, e1, e2, e3, e4⟩ := C75_fit (seeds := [s, 65535 - s]) (fit := fit)
    (by intro t ht; rcases List.mem_cons.1 ht with rfl | h
        · omega
        · rcases List.mem_cons.1 h with rfl | h
          · omega
          · simp at h) (by simp) (by simp; omega) (by simp) (by omega)
  match l, e2 with
  | [a, b], _ =>
    refine ⟨b, ?_⟩
    have h := e4 1
    have hsum : ([s, 65535 - s] : List Nat).sum = 65535 := by simp; omega
    rw [hsum] at h
    simp only [List.take_succ_cons, List.take_zero, List.sum_cons, List.sum_nil, Nat.add_zero] at h
    have h := abs_le.1 h
    have h1' : 2 * ((s : ℚ) * fit) ≤ 2 * (65535 * k) + fit := by exact_mod_cast h1
    have h2' : 2 * (65535 * (k : ℚ)) ≤ 2 * (s * fit) + fit := by exact_mod_cast h2
    have hf' : (fit : ℚ) ≤ 64000 := by exact_mod_cast hf
    have e : (fit : ℚ) * s / (65535 : Nat) = s * fit / 65535 := by push_cast; ring
    rw [e] at h
    have g1 : (s : ℚ) * fit / 65535 ≤ k + 49 / 100 := by
      rw [div_le_iff₀ (by norm_num)]; linarith
    have g2 : (k : ℚ) - 49 / 100 ≤ s * fit / 65535 := by
      rw [le_div_iff₀ (by norm_num)]; linarith
    have i1 : (a : ℚ) < ((k + 1 : Nat) : ℚ) := by push_cast; linarith
    have i2 : (k : ℚ) < ((a + 1 : Nat) : ℚ) := by push_cast; linarith
    have i1 : a < k + 1 := by exact_mod_cast i1
    have i2 : k < a + 1 := by exact_mod_cast i2
    have : a = k := by omega
    rw [e1, this]

theorem leNat_pair {s : Nat} (hs : s ≤ 65535) (l : Bytes) :
    leNat ((UInt8.ofNat (s % 256) :: UInt8.ofNat (s / 256) :: l).take 2) = s := by
  simp [leNat, UInt8.toNat_ofNat']
  omega

theorem Expr.leaves_pos (e : Expr) : 1 ≤ e.leaves := by
  cases e with
  | num => exact le_refl _
  | word => exact le_refl _
  | bin op l r => have := Expr.leaves_pos l; show 1 ≤ l.leaves + r.leaves; omega

theorem exp_every : ∀ e : Expr, e.Over recOps [] → e.leaves ≤ 12800 →
    ∃ (bs : Bytes) (N : Nat), bs.length + 3 = 5 * e.leaves ∧ ∀ n, N ≤ n → ∃ t, experiment n (bs : ABlob) = (.ok e.text, t)
  | .num v, _, _ => ⟨[0, v], 1, rfl, fun n hn => by
      obtain ⟨m, rfl⟩ : ∃ m, n = m + 1 := ⟨n - 1, by omega⟩
      exact ⟨[], exp_leaf m 0 v (by simp)⟩⟩
  | .word w, h, _ => by cases h
  | .bin op l r, ⟨ho, hl, hr⟩, hle => by
    have hle : l.leaves + r.leaves ≤ 12800 := hle
    have p1 := l.leaves_pos
    have p2 := r.leaves_pos
    obtain ⟨b1, N1, l1, r1⟩ := exp_every l hl (by omega)
    obtain ⟨b2, N2, l2, r2⟩ := exp_every r hr (by omega)
    obtain ⟨q, hq, rfl⟩ := List.mem_iff_getElem.1 ho
    obtain ⟨s, hs, k', hk⟩ := fit_every (fit := b1.length + b2.length - 4) (k := b1.length - 2) (by omega) (by omega)
    refine ⟨UInt8.ofNat (51 * q + 25) :: UInt8.ofNat (s % 256) :: UInt8.ofNat (s / 256) :: (b1 ++ b2), max N1 N2 + 1, ?_, ?_⟩
    · show (b1 ++ b2).length + 1 + 1 + 1 + 3 = 5 * (l.leaves + r.leaves)
      rw [List.length_append]; omega
    · intro n hn
      obtain ⟨m, rfl⟩ : ∃ m, n = m + 1 := ⟨n - 1, by omega⟩
      obtain ⟨t1, x1⟩ := r1 m (by omega)
      obtain ⟨t2, x2⟩ := r2 m (by omega)
      refine ⟨t2, ?_⟩
      have hlen : (UInt8.ofNat (s % 256) :: UInt8.ofNat (s / 256) :: (b1 ++ b2)).length = b1.length + b2.length + 2 := by
        simp
      have hk2 : b1.length - 2 + 2 = b1.length := by omega
      refine exp_bin (q := q) (k := b1.length - 2) hq (pick5_every hq) (by rw [hlen]; omega) (by rw [hlen]; omega)
        ⟨k', ?_⟩ (by rw [hlen]; omega) ?_ ?_
      · rw [leNat_pair hs, hlen, ← hk]
        congr 1
      · rw [hk2]
        show (experiment m (List.take b1.length (b1 ++ b2) : ABlob)).1 = _
        rw [List.take_left, x1]
      · rw [hk2]
        show experiment m (List.drop b1.length (b1 ++ b2) : ABlob) = _
        rw [List.drop_left, x2]

/-- **C77 (every expression).** Every expression of numbers below 256 and the five operators, with up to 12,800 numbers, is
written from some data: five bytes for every number, less three. What is missing: more numbers. The oracle that divides the
data has 16 bits, so in longer data not every division can be asked for. -/
theorem C77_every {e : Expr} (ho : e.Over recOps []) (hl : e.leaves ≤ 12800) :
    ∃ bs : Bytes, bs.length + 3 = 5 * e.leaves ∧
      ∀ b, Reachable b → Holds b bs → Recursion b (.ok e.text) := by
  obtain ⟨bs, N, h1, h2⟩ := exp_every e ho hl
  refine ⟨bs, h1, fun b hr hh => ⟨N, fun n hn => ?_⟩⟩
  obtain ⟨t, ht⟩ := h2 n hn
  rw [experiment_holds hr hh, ht]

/-- (1 ^ (2 / 3)) from twelve bytes. -/
example : ∃ bs : Bytes, bs.length = 12 ∧ ∀ b, Reachable b → Holds b bs →
    Recursion b (.ok (Expr.bin (str "^") (.num 1) (.bin (str "/") (.num 2) (.num 3))).text) := by
  obtain ⟨bs, h1, h2⟩ := C77_every (e := Expr.bin (str "^") (.num 1) (.bin (str "/") (.num 2) (.num 3)))
    ⟨by decide, trivial, by decide, trivial, trivial⟩ (by decide)
  exact ⟨bs, by simp [Expr.leaves] at h1; omega, h2⟩

/-! ## Expressions that are never written -/

theorem Expr.Over.mono {ops ws : List Bytes} {e : Expr} (h : e.Over ops []) : e.Over ops ws := by
  induction e with
  | num => trivial
  | word => cases h
  | bin op l r ihl ihr => exact ⟨h.1, ihl h.2.1, ihr h.2.2⟩

/-- Different expressions have different texts. -/
theorem recOps_unambiguous {e1 e2 : Expr} (h1 : e1.Over recOps []) (h2 : e2.Over recOps []) (h : e1.text = e2.text) :
    e1 = e2 :=
  C70_unambiguous (ops := recOps) (by decide +kernel) h1.mono h2.mono h

/-- The first of two sizes is 0 or has at least the share of the seed 1. -/
theorem fit_first {s fit a b : Nat} (hs : s ≤ 65535) (hf : fit < 2147483648) (h : fitSizes [s, 65535 - s] fit = .ok [a, b]) :
    a = 0 ∨ fit < 65535 * (a + 1) := by
  obtain ⟨l, e1, e2, e3, e4⟩ := C75_fit (seeds := [s, 65535 - s]) (fit := fit)
    (by intro t ht; rcases List.mem_cons.1 ht with rfl | h
        · omega
        · rcases List.mem_cons.1 h with rfl | h
          · omega
          · simp at h) (by simp) (by simp; omega) (by simp) hf
  rw [h] at e1
  cases e1
  have h := e4 1
  have hsum : ([s, 65535 - s] : List Nat).sum = 65535 := by simp; omega
  rw [hsum] at h
  simp only [List.take_succ_cons, List.take_zero, List.sum_cons, List.sum_nil, Nat.add_zero] at h
  have h := abs_le.1 h
  rcases Nat.eq_zero_or_pos s with rfl | h0
  · left
    simp only [Nat.cast_zero, mul_zero, zero_div] at h
    have : (a : ℚ) < ((1 : Nat) : ℚ) := by push_cast; linarith
    have : a < 1 := by exact_mod_cast this
    omega
  · right
    have h0' : (1 : ℚ) ≤ s := by exact_mod_cast h0
    have hfit : (0 : ℚ) ≤ fit := by positivity
    have : (fit : ℚ) / 65535 ≤ fit * s / (65535 : Nat) := by
      push_cast
      rw [div_le_div_iff₀ (by norm_num) (by norm_num)]
      nlinarith
    have : (fit : ℚ) / 65535 < a + 1 := by linarith
    rw [div_lt_iff₀ (by norm_num)] at this
    have : (fit : ℚ) < ((65535 * (a + 1) : Nat) : ℚ) := by push_cast; linarith
    exact_mod_cast this

/-- **C77 does not hold for large expressions**: if the left operand has at least two numbers and the right one 120,000 times
as many, no blob of less than 2^31 bytes makes the recursion write the expression. -/
theorem C77_violated_lopsided {op : Bytes} {l r : Expr} (ho : (Expr.bin op l r).Over recOps []) (hl2 : 2 ≤ l.leaves)
    (hrl : 120000 * l.leaves ≤ r.leaves) {b : Blob} {bs : Bytes} (hr : Reachable b) (hh : Holds b bs)
    (hS : bs.length < 2147483648) : ¬ Recursion b (.ok (Expr.bin op l r).text) := by
  intro hrec
  by_cases hlt : bs.length < 2
  · have hsh : ∀ t : Bytes, t.length = 1 → Recursion b (.ok t) → False := by
      intro t ht h
      have := Out.ok.inj (hrec.unique h)
      have hl := congrArg List.length this
      rw [ht] at hl
      simp [Expr.text, str] at hl
    rcases Nat.lt_or_ge bs.length 1 with h | h
    · exact hsh _ (by decide) ((C77_total hr hh).1 (by omega))
    · exact hsh _ (by decide) ((C77_total hr hh).2.1 (by omega))
  · obtain ⟨e, t, ho', ha, hb, hx⟩ := exp_total bs.length bs le_rfl (by omega) hS
    have hrec' : Recursion b (.ok e.text) := ⟨bs.length, fun n hn => by rw [experiment_holds hr hh, hx n hn]⟩
    have he := recOps_unambiguous ho ho' (Out.ok.inj (hrec.unique hrec'))
    subst he
    have ha : 5 * (l.leaves + r.leaves) ≤ bs.length + 3 := ha
    have hb : bs.length + 3 ≤ 9 * (l.leaves + r.leaves) := hb
    match bs, hlt with
    | c :: a, _ =>
      rw [List.length_cons] at *
      obtain ⟨q, hq, hc, -⟩ := pick5 c
      have hs : leNat (a.take 2) ≤ 65535 := leNat_two a
      obtain ⟨k, k', hk, hkk⟩ := C75_two hs (fit := a.length - 6) (by omega)
      have l1 : ((a.drop 2).take (k + 2)).length = k + 2 := by
        rw [List.length_take, List.length_drop]; omega
      have l2 : ((a.drop 2).drop (k + 2)).length = k' + 2 := by
        rw [List.length_drop, List.length_drop]; omega
      obtain ⟨e1, t1, o1, a1, b1, r1⟩ := exp_total _ ((a.drop 2).take (k + 2)) le_rfl (by omega) (by omega)
      obtain ⟨e2, t2, o2, a2, b2, r2⟩ := exp_total _ ((a.drop 2).drop (k + 2)) le_rfl (by omega) (by omega)
      have hrec2 : Recursion b (.ok (Expr.bin recOps[q] e1 e2).text) := by
        refine ⟨k + k' + 4 + 1, fun n hn => ?_⟩
        obtain ⟨m, rfl⟩ : ∃ m, n = m + 1 := ⟨n - 1, by omega⟩
        rw [experiment_holds hr hh, exp_bin hq hc (by omega) (by omega) ⟨k', hk⟩ (by omega)
          (by rw [r1 m (by omega)]) (r2 m (by omega))]
        rfl
      have := recOps_unambiguous ho (e2 := .bin recOps[q] e1 e2) ⟨List.getElem_mem hq, o1, o2⟩
        (Out.ok.inj (hrec.unique hrec2))
      injection this with k1 k2 k3
      subst k2 k3
      have := fit_first hs (by omega) hk
      omega

theorem fullSum_rec (n : Nat) : (fullSum n).Over recOps [] := by
  induction n with
  | zero => trivial
  | succ n ih => exact ⟨by decide, ih, ih⟩

/-- A sum of two numbers added to a sum of 2^18 numbers: never written. -/
example {b : Blob} {bs : Bytes} (hr : Reachable b) (hh : Holds b bs) (hS : bs.length < 2147483648) :
    ¬ Recursion b (.ok (Expr.bin (str "+") (fullSum 1) (fullSum 18)).text) :=
  C77_violated_lopsided ⟨by decide, fullSum_rec 1, fullSum_rec 18⟩ (by rw [(fullSum_facts 1).1]; decide)
    (by rw [(fullSum_facts 1).1, (fullSum_facts 18).1]; decide) hr hh hS

end BS
