import Verif.Spec.Hexdump
import Verif.Lemmas.BlobHist
import Mathlib.Tactic.IntervalCases

/-!
# C45: the hex dump
-/

namespace BS

theorem fmtX_byte (c : UInt8) : fmtX 2 c.toNat = hexPair c := by
  have h : ∀ k : Fin 256, fmtX 2 k.val = [hexChar (k.val / 16), hexChar (k.val % 16)] := by decide +kernel
  exact h ⟨c.toNat, c.toNat_lt⟩

theorem shown_eq (c : UInt8) : (if isPrint c then c else 46) = shownAs c := by
  unfold isPrint shownAs
  by_cases h : 32 ≤ c.toNat ∧ c.toNat ≤ 126
  · rw [if_pos h, if_pos]; simp only [Bool.and_eq_true, decide_eq_true_eq]; omega
  · rw [if_neg h, if_neg]; simp only [Bool.and_eq_true, decide_eq_true_eq]; omega

/-! ## Writing into the line -/

theorem poke_at {X Y : LineBuf} (d : Option UInt8) (c : UInt8) {i : Int} (hi : i = X.length) (h : X.length < 100) :
    poke i c (X ++ d :: Y) = .ok (X ++ some c :: Y) := by
  unfold poke
  rw [if_pos (by omega), hi, Int.toNat_natCast]
  congr 1
  rw [List.set_append_right _ _ (le_refl _), Nat.sub_self]
  rfl

theorem pokes_at {X D Y : LineBuf} {cs : Bytes} {i : Int} (hi : i = X.length) (hd : D.length = cs.length)
    (h : X.length + cs.length ≤ 100) : pokes i cs (X ++ (D ++ Y)) = .ok (X ++ (cs.map some ++ Y)) := by
  induction cs generalizing i X D with
  | nil => rw [List.length_eq_zero_iff.1 hd]; rfl
  | cons c cs ih =>
    cases D with
    | nil => simp at hd
    | cons d D =>
      rw [List.length_cons] at h
      unfold pokes
      rw [List.cons_append, poke_at d c hi (by omega)]
      show pokes (i + 1) cs _ = _
      have := ih (i := i + 1) (X := X ++ [some c]) (D := D) (by simp [hi]) (by simpa using hd) (by simp; omega)
      simpa using this

/-- The hex digits of the bytes from number `rp` of a row on. -/
def hexFrom : Nat → Bytes → Bytes
  | _, [] => []
  | rp, c :: r => hexPair c ++ (if (rp + 1) % 4 = 0 ∧ r ≠ [] then [32] else []) ++ hexFrom (rp + 1) r

theorem hexFrom_column (row : Bytes) : ∀ k, hexFrom (4 * k) row = hexColumn row := by
  induction row using hexColumn.induct with
  | case1 a b c d e r ih =>
    intro k
    have h1 : (4 * k + 1) % 4 ≠ 0 := by omega
    have h2 : (4 * k + 1 + 1) % 4 ≠ 0 := by omega
    have h3 : (4 * k + 1 + 1 + 1) % 4 ≠ 0 := by omega
    have h4 : (4 * k + 1 + 1 + 1 + 1) % 4 = 0 := by omega
    rw [hexColumn, hexFrom, hexFrom, hexFrom, hexFrom, if_neg (by simp), if_neg (by simp [h2]), if_neg (by simp [h3]),
      if_pos (by simp [h4]), show 4 * k + 1 + 1 + 1 + 1 = 4 * (k + 1) by omega, ih]
    simp
  | case2 a r h ih =>
    intro k
    have h1 : (4 * k + 1) % 4 ≠ 0 := by omega
    have h2 : (4 * k + 1 + 1) % 4 ≠ 0 := by omega
    have h3 : (4 * k + 1 + 1 + 1) % 4 ≠ 0 := by omega
    match r, h with
    | [], _ => simp [hexFrom, hexColumn]
    | [b], _ => simp [hexFrom, hexColumn]
    | [b, c], _ => simp [hexFrom, hexColumn, h2]
    | [b, c, d], _ => simp [hexFrom, hexColumn, h2, h3]
    | b :: c :: d :: e :: r, h => exact absurd rfl (h b c d e r)
  | case3 => intro k; rfl

/-- The end of `dumpRow`, before the line is printed. -/
def finishRow (r : Int × Int × LineBuf) : Out LineBuf :=
  let ix := if r.2.1 % 4 = 0 then r.1 - 1 else r.1
  (poke ix 9 r.2.2).bind fun buf => poke (ix + 1) 9 buf

theorem rowStep_at {A W S V : LineBuf} {w1 w2 w3 w4 v : Option UInt8} (c : UInt8) {ix ix2 rp : Int}
    (h1 : ix = A.length) (h2 : ix2 = A.length + (4 + W.length) + S.length)
    (h : A.length + (4 + W.length) + S.length < 100) :
    rowStep c ix ix2 rp (A ++ ([w1, w2, w3, w4] ++ (W ++ (S ++ v :: V)))) =
      if rp % 4 = 0 then .ok (ix + 1, A ++ ((hexPair c).map some ++ ([some 32, some 32] ++ (W ++ (S ++ some (shownAs c) :: V)))))
      else .ok (ix, A ++ ((hexPair c).map some ++ ([some 32, some 0] ++ (W ++ (S ++ some (shownAs c) :: V))))) := by
  unfold rowStep sprintfAt
  rw [fmtX_byte, shown_eq, pokes_at h1 (by rfl) (by show A.length + 4 ≤ 100; omega)]
  show Out.bind (poke _ _ _) _ = _
  have e2 := poke_at (X := A ++ ((hexPair c ++ [32] ++ [0]).map some ++ (W ++ S))) (Y := V) v (shownAs c) (i := ix2)
    (by rw [h2]; simp [hexPair]; omega) (by simp [hexPair]; omega)
  simp only [List.append_assoc] at e2
  simp only [List.append_assoc] at *
  rw [e2]
  show (if rp % 4 = 0 then _ else _) = _
  split
  · have e3 := poke_at (X := A ++ (hexPair c ++ [32]).map some) (Y := W ++ (S ++ some (shownAs c) :: V)) (some 0) 32 (i := ix + 1 + 2)
      (by rw [h1]; simp [hexPair]; omega) (by simp [hexPair]; omega)
    simp only [List.append_assoc, List.map_append, List.map_cons, List.map_nil, List.cons_append, List.nil_append] at e3 ⊢
    rw [e3]
    rfl
  · simp only [List.map_append, List.append_assoc]
    rfl

theorem row_at (p : Ptr) (row : Bytes) (n k : Nat) (rp m : Nat) (A S V : LineBuf) (w1 w2 : Option UInt8) {ix ix2 : Int}
    (h1 : ix = A.length) (h2 : ix2 = A.length + 2 + m + S.length) (hm : (hexFrom rp row).length ≤ m)
    (hV : row.length ≤ V.length) (h : A.length + 2 + m + S.length + V.length ≤ 100) (hr : row ≠ []) (hn : row.length < n)
    (hp : ∀ i c, row[i]? = some c → p.byteAt (k + i) = .ok c) :
    (rowLoop p n k row.length ix ix2 rp (A ++ ([w1, w2] ++ (List.replicate m (some 32) ++ (S ++ V))))).bind finishRow =
      .ok (A ++ ((hexFrom rp row).map some ++ ([some 9, some 9] ++ (List.replicate (m - (hexFrom rp row).length) (some 32) ++
        (S ++ ((row.map fun c => some (shownAs c)) ++ V.drop row.length)))))) := by
  induction row generalizing n k rp m A S V w1 w2 ix ix2 with
  | nil => exact absurd rfl hr
  | cons c row ih =>
    obtain ⟨n, rfl⟩ : ∃ m, n = m + 1 := ⟨n - 1, by omega⟩
    obtain ⟨v, V, rfl⟩ : ∃ v V', V = v :: V' := by
      cases V with
      | nil => simp at hV
      | cons v V => exact ⟨v, V, rfl⟩
    have hlen : (hexFrom rp (c :: row)).length =
        2 + (if (rp + 1) % 4 = 0 ∧ row ≠ [] then 1 else 0) + (hexFrom (rp + 1) row).length := by
      rw [hexFrom]; split <;> simp [hexPair] <;> omega
    obtain ⟨m, rfl⟩ : ∃ m', m = m' + 2 := ⟨m - 2, by omega⟩
    simp only [List.length_cons] at *
    have hp0 : p.byteAt k = .ok c := by simpa using hp 0 c rfl
    have hb : A ++ ([w1, w2] ++ (List.replicate (m + 2) (some 32) ++ (S ++ v :: V))) =
        A ++ ([w1, w2, some 32, some 32] ++ (List.replicate m (some 32) ++ (S ++ v :: V))) := by
      rw [List.replicate_succ, List.replicate_succ]; simp
    rw [rowLoop, if_neg (by omega), hp0, hb]
    show ((rowStep c ix ix2 (rp + 1) _).bind _).bind finishRow = _
    rw [rowStep_at c h1 (by rw [h2, List.length_replicate]; omega) (by rw [List.length_replicate]; omega),
      show ((row.length + 1 : Nat) : Int) - 1 = row.length by omega]
    have hcast : ((rp : Int) + 1) % 4 = 0 ↔ (rp + 1) % 4 = 0 := by omega
    by_cases hrow : row = []
    · -- the last byte
      subst hrow
      obtain ⟨n, rfl⟩ : ∃ m, n = m + 1 := ⟨n - 1, by simp at hn; omega⟩
      have hfin : ∀ (ix' : Int) (x : UInt8), ix' = A.length + 2 →
          (poke ix' 9 (A ++ ((hexPair c).map some ++ ([some 32, some x] ++ (List.replicate m (some 32) ++
            (S ++ some (shownAs c) :: V)))))).bind (fun buf => poke (ix' + 1) 9 buf) =
          .ok (A ++ ((hexPair c).map some ++ ([some 9, some 9] ++ (List.replicate m (some 32) ++
            (S ++ some (shownAs c) :: V))))) := by
        intro ix' x hx
        have e1 := poke_at (X := A ++ (hexPair c).map some) (Y := some x :: (List.replicate m (some 32) ++
            (S ++ some (shownAs c) :: V))) (some 32) 9 (i := ix') (by rw [hx]; simp [hexPair]) (by simp [hexPair]; omega)
        have e2 := poke_at (X := A ++ ((hexPair c).map some ++ [some 9])) (Y := List.replicate m (some 32) ++
            (S ++ some (shownAs c) :: V)) (some x) 9 (i := ix' + 1) (by rw [hx]; simp [hexPair]; omega) (by simp [hexPair]; omega)
        simp only [List.append_assoc, List.cons_append, List.nil_append] at e1 e2 ⊢
        rw [e1]
        show poke _ _ _ = _
        rw [e2]
      have hG : hexFrom rp [c] = hexPair c := by simp [hexFrom]
      rw [hG]
      by_cases h4 : (rp + 1) % 4 = 0
      · rw [if_pos (hcast.2 h4)]
        show finishRow (ix + 1 + 2, ((rp : Int) + 1), _) = _
        unfold finishRow
        dsimp only
        rw [if_pos (hcast.2 h4), hfin _ _ (by omega)]
        simp [hexPair]
      · rw [if_neg (fun h => h4 (hcast.1 h))]
        show finishRow (ix + 2, ((rp : Int) + 1), _) = _
        unfold finishRow
        dsimp only
        rw [if_neg (fun h => h4 (hcast.1 h)), hfin _ _ (by omega)]
        simp [hexPair]
    · by_cases h4 : (rp + 1) % 4 = 0
      · rw [if_pos (hcast.2 h4)]
        rw [if_pos ⟨h4, hrow⟩] at hlen
        obtain ⟨m, rfl⟩ : ∃ m', m = m' + 1 := ⟨m - 1, by
          have : 0 < (hexFrom (rp + 1) row).length := by
            cases row with
            | nil => exact absurd rfl hrow
            | cons d r => rw [hexFrom]; simp [hexPair]
          omega⟩
        have := ih (n := n) (k := k + 1) (rp := rp + 1) (m := m) (A := A ++ ((hexPair c).map some ++ [some 32]))
          (S := S ++ [some (shownAs c)]) (V := V) (some 32) (some 32) (ix := ix + 1 + 2) (ix2 := ix2 + 1)
          (by simp [hexPair]; omega) (by simp [hexPair]; omega) (by omega) (by omega) (by simp [hexPair]; omega)
          hrow (by omega) (fun i c' hc => by rw [Nat.add_assoc, Nat.add_comm 1 i]; exact hp (i + 1) c' hc)
        show (rowLoop _ _ _ _ _ _ _ _).bind finishRow = _
        have e1 : A ++ ((hexPair c).map some ++ ([some 32, some 32] ++ (List.replicate (m + 1) (some 32) ++
            (S ++ some (shownAs c) :: V)))) = A ++ ((hexPair c).map some ++ [some 32]) ++ ([some 32, some 32] ++
            (List.replicate m (some 32) ++ (S ++ [some (shownAs c)] ++ V))) := by
          rw [List.replicate_succ]; simp
        have e2 : ((rp : Int) + 1) = ((rp + 1 : Nat) : Int) := by push_cast; rfl
        rw [e1, e2, this, hexFrom, if_pos ⟨h4, hrow⟩]
        have e3 : m + 1 + 2 - (hexPair c ++ [32] ++ hexFrom (rp + 1) row).length = m - (hexFrom (rp + 1) row).length := by
          simp [hexPair]
        rw [e3]
        simp
      · rw [if_neg (fun h => h4 (hcast.1 h))]
        rw [if_neg (fun h => h4 h.1)] at hlen
        have := ih (n := n) (k := k + 1) (rp := rp + 1) (m := m) (A := A ++ ((hexPair c).map some))
          (S := S ++ [some (shownAs c)]) (V := V) (some 32) (some 0) (ix := ix + 2) (ix2 := ix2 + 1)
          (by simp [hexPair]; omega) (by simp [hexPair]; omega) (by omega) (by omega) (by simp [hexPair]; omega)
          hrow (by omega) (fun i c' hc => by rw [Nat.add_assoc, Nat.add_comm 1 i]; exact hp (i + 1) c' hc)
        show (rowLoop _ _ _ _ _ _ _ _).bind finishRow = _
        have e1 : A ++ ((hexPair c).map some ++ ([some 32, some 0] ++ (List.replicate m (some 32) ++
            (S ++ some (shownAs c) :: V)))) = A ++ ((hexPair c).map some) ++ ([some 32, some 0] ++
            (List.replicate m (some 32) ++ (S ++ [some (shownAs c)] ++ V))) := by simp
        have e2 : ((rp : Int) + 1) = ((rp + 1 : Nat) : Int) := by push_cast; rfl
        rw [e1, e2, this, hexFrom, if_neg (fun h => h4 h.1)]
        have e3 : m + 2 - (hexPair c ++ [] ++ hexFrom (rp + 1) row).length = m - (hexFrom (rp + 1) row).length := by
          simp [hexPair]
        rw [e3]
        simp

/-! ## The address -/

/-- A number in `w` digits. -/
def hexDigits : Nat → Nat → Bytes
  | 0, _ => []
  | w + 1, v => hexDigits w (v / 16) ++ [hexChar (v % 16)]

theorem hexDigit_eq {d : Nat} (h : d < 16) : upperHex.hexDigit d = hexChar d := by
  interval_cases d <;> decide

theorem hexDigits_zero (w : Nat) : hexDigits w 0 = List.replicate w 48 := by
  induction w with
  | zero => rfl
  | succ w ih => rw [hexDigits, Nat.zero_div, ih, List.replicate_succ']; rfl

theorem upperHex_pad (w : Nat) : ∀ f v, v < 16 ^ (w + 1) → w < f →
    (upperHex f v).length ≤ w + 1 ∧
    List.replicate (w + 1 - (upperHex f v).length) 48 ++ upperHex f v = hexDigits (w + 1) v := by
  induction w with
  | zero =>
    intro f v hv hf
    obtain ⟨f, rfl⟩ : ∃ m, f = m + 1 := ⟨f - 1, by omega⟩
    have hv : v < 16 := by simpa using hv
    rw [upperHex, if_pos hv, hexDigits, Nat.mod_eq_of_lt hv, hexDigit_eq hv]
    exact ⟨le_refl _, rfl⟩
  | succ w ih =>
    intro f v hv hf
    obtain ⟨f, rfl⟩ : ∃ m, f = m + 1 := ⟨f - 1, by omega⟩
    rw [upperHex]
    split
    · rename_i hv
      rw [hexDigits, Nat.mod_eq_of_lt hv, Nat.div_eq_of_lt hv, hexDigits_zero, hexDigit_eq hv]
      exact ⟨by simp, rfl⟩
    · obtain ⟨i1, i2⟩ := ih f (v / 16) (by rw [pow_succ] at hv; omega) (by omega)
      rw [hexDigits, ← i2, List.length_append, hexDigit_eq (Nat.mod_lt _ (by norm_num))]
      refine ⟨by simpa using i1, ?_⟩
      rw [List.length_singleton, Nat.add_sub_add_right, List.append_assoc]

theorem fmtX_addr {v : Nat} (h : v < 2 ^ 32) : fmtX 8 v = addrText v := by
  have := (upperHex_pad 7 16 v (by simpa using h) (by norm_num)).2
  unfold fmtX
  dsimp only
  rw [this]
  simp [hexDigits, addrText, List.range_succ, Nat.div_div_eq_div_mul]

theorem upperHex_char (f v : Nat) : (upperHex f v).length ≤ f ∧ ∀ c ∈ upperHex f v, c ≠ 0 := by
  have hd : ∀ d < 16, upperHex.hexDigit d ≠ 0 := by
    intro d hd; interval_cases d <;> decide
  induction f generalizing v with
  | zero => exact ⟨le_refl _, by simp [upperHex]⟩
  | succ f ih =>
    rw [upperHex]
    split
    · rename_i hv
      refine ⟨by simp, ?_⟩
      intro c hc
      rw [List.mem_singleton] at hc
      rw [hc]; exact hd _ hv
    · refine ⟨by simpa using (ih (v / 16)).1, ?_⟩
      intro c hc
      rw [List.mem_append, List.mem_singleton] at hc
      rcases hc with hc | rfl
      · exact (ih _).2 c hc
      · exact hd _ (Nat.mod_lt _ (by norm_num))

theorem fmtX_char (v : Nat) : (fmtX 8 v).length ≤ 16 ∧ ∀ c ∈ fmtX 8 v, c ≠ 0 := by
  obtain ⟨h1, h2⟩ := upperHex_char 16 v
  unfold fmtX
  dsimp only
  refine ⟨by rw [List.length_append, List.length_replicate]; omega, ?_⟩
  intro c hc
  rw [List.mem_append, List.mem_replicate] at hc
  rcases hc with ⟨_, rfl⟩ | hc
  · decide
  · exact h2 c hc

/-! ## A line -/

theorem cString_at {s : Bytes} (t : LineBuf) (h : ∀ c ∈ s, c ≠ 0) : cString (s.map some ++ some 0 :: t) = .ok s := by
  induction s with
  | nil => rfl
  | cons c s ih =>
    show (if c = 0 then _ else _) = _
    rw [if_neg (h c (by simp))]
    show (cString (s.map some ++ some 0 :: t)).map _ = _
    rw [ih fun x hx => h x (by simp [hx])]
    rfl

/-- A line with this text for the address. -/
def lineWith (addr : Bytes) (row : Bytes) : Bytes :=
  [32, 62] ++ hexColumn row ++ [9, 9] ++ List.replicate (35 - (hexColumn row).length) 32 ++ row.map shownAs ++
    List.replicate (17 - row.length) 32 ++ addr

theorem hexColumn_length (row : Bytes) : (hexColumn row).length = 2 * row.length + (row.length - 1) / 4 := by
  induction row using hexColumn.induct with
  | case1 a b c d e r ih => rw [hexColumn]; simp [hexPair, ih]; omega
  | case2 a r h ih =>
    match r, h with
    | [], _ => simp [hexColumn, hexPair]
    | [b], _ => simp [hexColumn, hexPair]
    | [b, c], _ => simp [hexColumn, hexPair]
    | [b, c, d], _ => simp [hexColumn, hexPair]
    | b :: c :: d :: e :: r, h => exact absurd rfl (h b c d e r)
  | case3 => rfl

theorem hexChar_ne {d : Nat} (h : d < 16) : hexChar d ≠ 0 := by
  interval_cases d <;> decide

theorem hexPair_ne (x : UInt8) : ∀ c ∈ hexPair x, c ≠ 0 := by
  intro c hc
  have := x.toNat_lt
  simp only [hexPair, List.mem_cons, List.not_mem_nil, or_false] at hc
  rcases hc with rfl | rfl <;> apply hexChar_ne <;> omega

theorem hexColumn_ne (row : Bytes) : ∀ c ∈ hexColumn row, c ≠ 0 := by
  induction row using hexColumn.induct with
  | case1 a b c d e r ih =>
    rw [hexColumn]
    intro x hx
    simp only [List.mem_append, List.mem_singleton] at hx
    rcases hx with ((((hx | hx) | hx) | hx) | rfl) | hx
    · exact hexPair_ne _ _ hx
    · exact hexPair_ne _ _ hx
    · exact hexPair_ne _ _ hx
    · exact hexPair_ne _ _ hx
    · decide
    · exact ih _ hx
  | case2 a r h ih =>
    rw [hexColumn]
    · intro x hx
      rcases List.mem_append.1 hx with hx | hx
      · exact hexPair_ne _ _ hx
      · exact ih _ hx
    · exact h
  | case3 => simp [hexColumn]

theorem shownAs_ne (x : UInt8) : shownAs x ≠ 0 := by
  unfold shownAs
  split
  · rintro rfl; simp at *
  · decide

theorem lineWith_ne {addr : Bytes} (h : ∀ c ∈ addr, c ≠ 0) (row : Bytes) : ∀ c ∈ lineWith addr row, c ≠ 0 := by
  unfold lineWith
  simp only [List.forall_mem_append]
  refine ⟨⟨⟨⟨⟨⟨by decide, hexColumn_ne row⟩, by decide⟩, ?_⟩, ?_⟩, ?_⟩, h⟩
  · intro c hc; rw [(List.mem_replicate.1 hc).2]; decide
  · intro c hc
    obtain ⟨x, _, rfl⟩ := List.mem_map.1 hc
    exact shownAs_ne x
  · intro c hc; rw [(List.mem_replicate.1 hc).2]; decide

theorem outBind_assoc {α β γ : Type} (o : Out α) (f : α → Out β) (g : β → Out γ) :
    (o.bind f).bind g = o.bind fun x => (f x).bind g := by
  cases o <;> rfl

theorem dumpRow_eq (p : Ptr) (off : Nat) (k : Int) (buf : LineBuf) :
    dumpRow p off k buf = (sprintfAt 0 ([32, 62] ++ List.replicate 28 32 ++ List.replicate 22 32 ++ List.replicate 4 32 ++
      fmtX 8 off) buf).bind fun buf => ((rowLoop p 101 off k 2 39 0 buf).bind finishRow).bind fun buf =>
        (cString buf).map fun s => (s, buf) := by
  unfold dumpRow
  congr 1
  funext buf
  rw [outBind_assoc]
  congr 1
  funext r
  unfold finishRow
  dsimp only
  rw [outBind_assoc]

theorem frame_eq {buf : LineBuf} (hb : buf.length = 100) (off : Nat) :
    ∃ t, sprintfAt 0 ([32, 62] ++ List.replicate 28 32 ++ List.replicate 22 32 ++ List.replicate 4 32 ++ fmtX 8 off) buf =
      .ok ([some 32, some 62] ++ ([some 32, some 32] ++ (List.replicate 35 (some 32) ++ ([] ++ (List.replicate 17 (some 32) ++
        ((fmtX 8 off).map some ++ some 0 :: t)))))) ∧ 57 + (fmtX 8 off).length + t.length = 100 := by
  have hl := (fmtX_char off).1
  refine ⟨buf.drop (57 + (fmtX 8 off).length), ?_, by rw [List.length_drop]; omega⟩
  unfold sprintfAt
  have := pokes_at (X := []) (D := buf.take (57 + (fmtX 8 off).length)) (Y := buf.drop (57 + (fmtX 8 off).length))
    (cs := [32, 62] ++ List.replicate 28 32 ++ List.replicate 22 32 ++ List.replicate 4 32 ++ fmtX 8 off ++ [0]) (i := 0) rfl
    (by simp; omega) (by simp; omega)
  rw [List.nil_append, List.take_append_drop] at this
  rw [this]
  simp only [List.map_append, List.map_replicate, List.map_cons, List.map_nil, List.append_assoc, List.nil_append]
  rfl

/-- Filling the line for up to 16 bytes works, and the line is as specified. -/
theorem dumpRow_ok {p : Ptr} {row : Bytes} {off : Nat} {buf : LineBuf} (hb : buf.length = 100) (h0 : row ≠ [])
    (h16 : row.length ≤ 16) (hp : ∀ i c, row[i]? = some c → p.byteAt (off + i) = .ok c) :
    ∃ buf', dumpRow p off row.length buf = .ok (lineWith (fmtX 8 off) row, buf') ∧ buf'.length = 100 := by
  obtain ⟨t, h1, ht⟩ := frame_eq hb off
  have hc := hexColumn_length row
  have hf := hexFrom_column row 0
  rw [Nat.mul_zero] at hf
  have h2 := row_at p row 101 off 0 35 [some 32, some 62] [] (List.replicate 17 (some 32) ++ ((fmtX 8 off).map some ++ some 0 :: t))
    (some 32) (some 32) (ix := 2) (ix2 := 39) rfl rfl (by rw [hf, hc]; omega) (by simp; omega) (by simp; omega) h0 (by omega) hp
  rw [dumpRow_eq, h1]
  refine ⟨(lineWith (fmtX 8 off) row).map some ++ some 0 :: t, ?_, ?_⟩
  · show ((rowLoop p 101 off row.length 2 39 0 _).bind finishRow).bind _ = _
    have h2' := h2
    rw [Nat.cast_zero] at h2'
    rw [h2', hf]
    show (cString _).map _ = _
    have e : [some 32, some 62] ++ (List.map some (hexColumn row) ++ ([some 9, some 9] ++
        (List.replicate (35 - (hexColumn row).length) (some 32) ++ ([] ++ ((List.map (fun c => some (shownAs c)) row) ++
          List.drop row.length (List.replicate 17 (some 32) ++ (List.map some (fmtX 8 off) ++ some 0 :: t))))))) =
        (lineWith (fmtX 8 off) row).map some ++ some 0 :: t := by
      rw [List.drop_append_of_le_length (by simp; omega), List.drop_replicate]
      unfold lineWith
      simp only [List.map_append, List.map_replicate, List.map_cons, List.map_nil, List.append_assoc, List.map_map, List.nil_append]
      rfl
    rw [e, cString_at _ (lineWith_ne (fmtX_char off).2 row)]
    rfl
  · rw [List.length_append, List.length_map, List.length_cons]
    unfold lineWith
    simp only [List.length_append, List.length_replicate, List.length_map, List.length_cons, List.length_nil]
    omega

/-- An empty line, too, stays in the buffer. -/
theorem dumpRow_empty (p : Ptr) (off : Nat) {buf : LineBuf} (hb : buf.length = 100) :
    ∃ line buf', dumpRow p off 0 buf = .ok (line, buf') ∧ buf'.length = 100 := by
  obtain ⟨t, h1, ht⟩ := frame_eq hb off
  rw [dumpRow_eq, h1]
  have e : ([some 32, some 9] ++ ([some 9, some 32] ++ (List.replicate 35 (some 32) ++ ([] ++ (List.replicate 17 (some 32) ++
        ((fmtX 8 off).map some ++ some 0 :: t)))))) = ([32, 9, 9, 32] ++ List.replicate 35 32 ++ List.replicate 17 32 ++ fmtX 8 off).map some
        ++ some 0 :: t := by
    simp only [List.map_append, List.map_replicate, List.map_cons, List.map_nil, List.append_assoc, List.nil_append]
    rfl
  refine ⟨[32, 9, 9, 32] ++ List.replicate 35 32 ++ List.replicate 17 32 ++ fmtX 8 off, ([some 32, some 9] ++ ([some 9, some 32] ++ (List.replicate 35 (some 32) ++ ([] ++ (List.replicate 17 (some 32) ++
        ((fmtX 8 off).map some ++ some 0 :: t)))))), ?_, ?_⟩
  · show (cString ([some 32, some 9] ++ ([some 9, some 32] ++ (List.replicate 35 (some 32) ++ ([] ++ (List.replicate 17 (some 32) ++
        ((fmtX 8 off).map some ++ some 0 :: t))))))).map _ = _
    rw [e, cString_at]
    · rfl
    · simp only [List.forall_mem_append]
      exact ⟨⟨⟨by decide, by decide⟩, by decide⟩, (fmtX_char off).2⟩
  · simp; omega

/-! ## The dump -/

theorem byteAt_of_read {p q : Ptr} {sz : Nat} {bs : Bytes} (h : p.add sz = .ok q) (hr : Ptr.range p q = .ok bs) :
    ∀ (i : Nat) c, bs[i]? = some c → p.byteAt i = .ok c := by
  intro i c hc
  cases p with
  | null =>
    by_cases h0 : sz = 0
    · rw [show Ptr.add .null sz = .ok .null from if_pos h0] at h
      cases h
      cases hr
      simp at hc
    · rw [show Ptr.add .null sz = .ub .ptrArith from if_neg h0] at h
      cases h
  | «at» buf o =>
    by_cases hle : o + sz ≤ buf.length
    · rw [show Ptr.add (.at buf o) sz = .ok (.at buf (o + sz)) from if_pos hle] at h
      cases h
      rw [show Ptr.range (.at buf o) (.at buf (o + sz)) = Ptr.read (.at buf o) (o + sz - o) from
        if_pos ⟨rfl, by omega⟩] at hr
      rw [Nat.add_sub_cancel_left, show Ptr.read (.at buf o) sz = .ok ((buf.drop o).take sz) from
        if_pos hle] at hr
      cases hr
      have hi : i < sz := by
        have := (List.getElem?_eq_some_iff.1 hc).1
        rw [List.length_take] at this; omega
      rw [List.getElem?_take_of_lt hi, List.getElem?_drop] at hc
      unfold Ptr.byteAt
      rw [show Ptr.add (.at buf o) i = .ok (.at buf (o + i)) from if_pos (by omega)]
      show ((Ptr.at buf (o + i)).read 1).bind _ = _
      rw [show Ptr.read (.at buf (o + i)) 1 = .ok ((buf.drop (o + i)).take 1) from if_pos (by omega)]
      show (match (buf.drop (o + i)).take 1 with | c :: _ => Out.ok c | [] => Out.ub .oob) = _
      obtain ⟨hl, e⟩ := List.getElem?_eq_some_iff.1 hc
      rw [List.drop_eq_getElem_cons hl, e]
      rfl
    · rw [show Ptr.add (.at buf o) sz = .ub .ptrArith from if_neg hle] at h
      cases h

theorem dump_eq {b : Blob} {bs : Bytes} (hr : Reachable b) (hh : Holds b bs) :
    ∃ p, (∀ n, b.dump n = dumpLoop p n 0 bs.length (List.replicate 100 none)) ∧
      ∀ (i : Nat) c, bs[i]? = some c → p.byteAt i = .ok c := by
  have hs : b.size = bs.length := by
    rw [holds_iff hr.valid] at hh
    rw [← hh, hr.valid.abs_length]
  unfold Holds Blob.asVector at hh
  cases e1 : b.data.add b.beg with
  | ok p =>
    rw [e1] at hh
    cases e2 : p.add b.size with
    | ok q =>
      have hh : (p.add b.size).bind (fun q => Ptr.range p q) = .ok bs := hh
      rw [e2] at hh
      refine ⟨p, fun n => ?_, byteAt_of_read e2 hh⟩
      unfold Blob.dump
      rw [e1]
      show dumpLoop p n 0 b.size _ = _
      rw [hs]
    | _ =>
      have hh : (p.add b.size).bind (fun q => Ptr.range p q) = .ok bs := hh
      rw [e2] at hh; cases hh
  | _ => rw [e1] at hh; cases hh

/-- The lines from number `k` on. -/
def linesFrom (k : Nat) (bs : Bytes) : Bytes :=
  ((List.range ((bs.length + 15) / 16)).map fun j =>
    dumpLine (16 * (k + j)) ((bs.drop (16 * j)).take 16) ++ [10]).flatten

theorem linesFrom_cons {bs : Bytes} (h : bs ≠ []) (k : Nat) :
    linesFrom k bs = dumpLine (16 * k) (bs.take 16) ++ [10] ++ linesFrom (k + 1) (bs.drop 16) := by
  have hl : 0 < bs.length := List.length_pos_iff.2 h
  unfold linesFrom
  have e : (bs.length + 15) / 16 = ((bs.drop 16).length + 15) / 16 + 1 := by rw [List.length_drop]; omega
  rw [e, List.range_succ_eq_map, List.map_cons, List.flatten_cons, List.map_map]
  congr 2
  apply List.map_congr_left
  intro j _
  show dumpLine (16 * (k + (j + 1))) _ ++ _ = dumpLine _ _ ++ _
  rw [List.drop_drop, show k + (j + 1) = k + 1 + j by omega, show 16 * (j + 1) = 16 + 16 * j by omega]

theorem dumpLoop_row {p : Ptr} {n off size : Nat} {buf buf' : LineBuf} {line out : Bytes} (h0 : size ≠ 0)
    (h : dumpRow p off (rowLen size) buf = .ok (line, buf')) : dumpLoop p (n + 1) off size buf out =
      dumpLoop p n (off + (rowLen size).toNat) (toSz (size - rowLen size)) buf' (out ++ line ++ [10]) := by
  rw [dumpLoop, if_neg h0, M.bind_ok (show M.lift _ out = (.ok (line, buf'), out) by rw [h]; rfl),
    M.bind_ok (show emit (line ++ [10]) out = (.ok (), out ++ line ++ [10]) by unfold emit; rw [List.append_assoc])]

theorem dumpLoop_ok (p : Ptr) (bs : Bytes) : ∀ (n k : Nat) (buf : LineBuf) (out : Bytes), buf.length = 100 →
    16 * k + bs.length < 2 ^ 31 → bs.length + 18 ≤ n → (∀ (i : Nat) c, bs[i]? = some c → p.byteAt (16 * k + i) = .ok c) →
    dumpLoop p n (16 * k) bs.length buf out = (.ok (), out ++ linesFrom k bs) := by
  induction h : bs.length using Nat.strong_induction_on generalizing bs with
  | _ m ih =>
  subst h
  intro n k buf out hb hlt hn hp
  obtain ⟨n, rfl⟩ : ∃ m, n = m + 1 := ⟨n - 1, by omega⟩
  by_cases h0 : bs = []
  · subst h0
    simp [linesFrom, dumpLoop]
  · have hl : 0 < bs.length := List.length_pos_iff.2 h0
    have hlt' : bs.length < 2147483648 := by omega
    have hw : wrap32 (bs.length : Int) = bs.length := by unfold wrap32; omega
    have ho : rowLen bs.length = ((bs.take 16).length : Nat) := by
      unfold rowLen; rw [hw, List.length_take]; split <;> omega
    obtain ⟨buf', h1, h2⟩ := dumpRow_ok (p := p) (row := bs.take 16) (off := 16 * k) hb
      (by intro e; rw [← List.length_eq_zero_iff, List.length_take] at e; omega) (by simp) (fun i c hc => by
        rw [List.getElem?_take] at hc
        split at hc
        · exact hp i c hc
        · cases hc)
    rw [dumpLoop_row (by omega) (ho ▸ h1), ho]
    rw [fmtX_addr (by omega), linesFrom_cons h0]
    have e1 : toSz ((bs.length : Int) - ((bs.take 16).length : Nat)) = (bs.drop 16).length := by
      rw [List.length_take, List.length_drop]; unfold toSz; omega
    rw [Int.toNat_natCast, e1]
    by_cases h16 : bs.length ≤ 16
    · have e2 : bs.drop 16 = [] := List.drop_of_length_le h16
      rw [e2]
      obtain ⟨n, rfl⟩ : ∃ m, n = m + 1 := ⟨n - 1, by omega⟩
      unfold dumpLoop
      simp [linesFrom, lineWith, dumpLine]
    · have e2 : 16 * k + (bs.take 16).length = 16 * (k + 1) := by rw [List.length_take]; omega
      rw [e2, ih _ (by rw [List.length_drop]; omega) (bs.drop 16) rfl n (k + 1) buf' _ h2
        (by rw [List.length_drop]; omega) (by rw [List.length_drop]; omega) (fun i c hc => by
          rw [List.getElem?_drop] at hc
          rw [show 16 * (k + 1) + i = 16 * k + (16 + i) by omega]; exact hp _ c hc)]
      simp [lineWith, dumpLine]

/-- **C45**: `Dump()` of a blob shorter than 2^31 bytes prints one line per 16 bytes, in which the hex
digits and the text column show the remaining bytes in order, and never leaves its line buffer. -/
theorem C45_dump {b : Blob} {bs : Bytes} (hr : Reachable b) (hh : Holds b bs) (hl : bs.length < 2 ^ 31) :
    Dumps b (dumpText bs) := by
  obtain ⟨p, h1, h2⟩ := dump_eq hr hh
  refine ⟨bs.length + 18, fun n hn out => ?_⟩
  rw [h1]
  have := dumpLoop_ok p bs n 0 (List.replicate 100 none) out (by simp) (by omega) hn (by simpa using h2)
  rw [Nat.mul_zero] at this
  rw [this]
  simp [linesFrom, dumpText]

/-- The line that shows a byte. -/
example : dumpLine 32 [72, 105, 33, 0, 255] =
    " >48692100 FF\t\t                        Hi!..            00000020".toList.map fun c => UInt8.ofNat c.toNat := by
  decide

/-- C45 on 20 bytes. -/
example : dumpText [48, 49, 50, 51, 52, 53, 54, 55, 56, 57, 58, 59, 60, 61, 62, 63, 1, 2, 3, 200] =
    " >30313233 34353637 38393A3B 3C3D3E3F\t\t0123456789:;<=>? 00000000\n >010203C8\t\t                           ....             00000010\n".toList.map
      fun c => UInt8.ofNat c.toNat := by decide +kernel

/-! ## Large blobs -/

theorem outBind_ok {α β : Type} (a : α) (f : α → Out β) : (Out.ok a).bind f = f a := rfl

theorem poke_cases (i : Int) (c : UInt8) (buf : LineBuf) :
    (∃ b, poke i c buf = .ok b) ∨ poke i c buf = .ub .oob := by
  unfold poke; split
  · exact .inl ⟨_, rfl⟩
  · exact .inr rfl

theorem pokes_cases (cs : Bytes) : ∀ (i : Int) (buf : LineBuf), (∃ b, pokes i cs buf = .ok b) ∨ pokes i cs buf = .ub .oob := by
  induction cs with
  | nil => exact fun i buf => .inl ⟨_, rfl⟩
  | cons c cs ih =>
    intro i buf
    unfold pokes
    rcases poke_cases i c buf with ⟨b, h⟩ | h
    · rw [h]; exact ih _ _
    · rw [h]; exact .inr rfl

theorem rowStep_cases (c : UInt8) (ix ix2 rp : Int) (buf : LineBuf) :
    (∃ jx b, rowStep c ix ix2 rp buf = .ok (jx, b) ∧ ix ≤ jx ∧ ix < 100) ∨ rowStep c ix ix2 rp buf = .ub .oob := by
  unfold rowStep sprintfAt
  by_cases hx : ix < 100
  · rcases pokes_cases (fmtX 2 c.toNat ++ [32] ++ [0]) ix buf with ⟨b1, h1⟩ | h1
    · rw [h1, outBind_ok]
      rcases poke_cases ix2 (if isPrint c then c else 46) b1 with ⟨b2, h2⟩ | h2
      · rw [h2, outBind_ok]
        split
        · rcases poke_cases (ix + 1 + 2) 32 b2 with ⟨b3, h3⟩ | h3
          · rw [h3]; exact .inl ⟨_, _, rfl, by omega, hx⟩
          · rw [h3]; exact .inr rfl
        · exact .inl ⟨_, _, rfl, le_refl _, hx⟩
      · rw [h2]; exact .inr rfl
    · rw [h1]; exact .inr rfl
  · right
    have : pokes ix (fmtX 2 c.toNat ++ [32] ++ [0]) buf = .ub .oob := by
      rw [fmtX_byte]
      show (poke ix _ buf).bind _ = _
      unfold poke
      rw [if_neg (by omega)]
      rfl
    rw [this]
    rfl

/-- The `for` loop with a negative count runs out of the buffer. -/
theorem rowLoop_negative (p : Ptr) (n : Nat) : ∀ (k : Nat) (rem ix ix2 rp : Int) (buf : LineBuf), rem < 0 →
    100 ≤ ix + n → (∀ i ≤ n, ∃ c, p.byteAt (k + i) = .ok c) → ∀ m > n, rowLoop p m k rem ix ix2 rp buf = .ub .oob := by
  induction n with
  | zero =>
    intro k rem ix ix2 rp buf hrem hix hp m hm
    obtain ⟨m, rfl⟩ : ∃ j, m = j + 1 := ⟨m - 1, by omega⟩
    unfold rowLoop
    rw [if_neg (by omega)]
    obtain ⟨c, hc⟩ := hp 0 (by omega)
    rw [Nat.add_zero] at hc
    rw [hc, outBind_ok]
    rcases rowStep_cases c ix ix2 (rp + 1) buf with ⟨jx, b, h, h1, h2⟩ | h
    · omega
    · rw [h]; rfl
  | succ n ih =>
    intro k rem ix ix2 rp buf hrem hix hp m hm
    obtain ⟨m, rfl⟩ : ∃ j, m = j + 1 := ⟨m - 1, by omega⟩
    unfold rowLoop
    rw [if_neg (by omega)]
    obtain ⟨c, hc⟩ := hp 0 (by omega)
    rw [Nat.add_zero] at hc
    rw [hc, outBind_ok]
    rcases rowStep_cases c ix ix2 (rp + 1) buf with ⟨jx, b, h, h1, h2⟩ | h
    · rw [h, outBind_ok]
      exact ih (k + 1) (rem - 1) (jx + 2) _ _ _ (by omega) (by omega) (fun i hi => by
        rw [Nat.add_assoc, Nat.add_comm 1 i]; exact hp (i + 1) (by omega)) m (by omega)
    · rw [h]; rfl

theorem byteAt_some {p : Ptr} {bs : Bytes} (hp : ∀ (i : Nat) c, bs[i]? = some c → p.byteAt i = .ok c) {i : Nat}
    (h : i < bs.length) : ∃ c, p.byteAt i = .ok c :=
  ⟨_, hp i _ (List.getElem?_eq_getElem h)⟩

/-- From 2^32 bytes on, the loop never gets to 0. -/
theorem dumpLoop_diverges {p : Ptr} {bs : Bytes} (hp : ∀ (i : Nat) c, bs[i]? = some c → p.byteAt i = .ok c)
    (n : Nat) : ∀ (off size : Nat) (buf : LineBuf) (out : Bytes), buf.length = 100 → off + size = bs.length →
      size < W64 → 4294967296 ≤ size → size % 4294967296 < 2147483648 → (dumpLoop p n off size buf out).1 = .fuel := by
  induction n with
  | zero => intros; rfl
  | succ n ih =>
    intro off size buf out hb hs hW hbig hmod
    have hw : wrap32 (size : Int) = (size % 4294967296 : Nat) := by unfold wrap32; omega
    have hk : ∃ k : Nat, rowLen size = k ∧ k ≤ 16 ∧ k ≤ size % 4294967296 := by
      unfold rowLen
      rw [hw]
      by_cases h : ((size % 4294967296 : Nat) : Int) > 16
      · exact ⟨16, by rw [if_pos h]; rfl, le_refl _, by omega⟩
      · exact ⟨size % 4294967296, by rw [if_neg h], by omega, le_refl _⟩
    obtain ⟨k, e, h16, hle⟩ := hk
    have hrow : ∃ line buf', dumpRow p off k buf = .ok (line, buf') ∧ buf'.length = 100 := by
      rcases Nat.eq_zero_or_pos k with rfl | h0
      · exact dumpRow_empty p off hb
      · have hlen : ((bs.drop off).take k).length = k := by rw [List.length_take, List.length_drop]; omega
        obtain ⟨buf', h1, h2⟩ := dumpRow_ok (p := p) (row := (bs.drop off).take k) (off := off) hb
          (by intro e; rw [e] at hlen; simp at hlen; omega) (by omega) (fun i c hc => by
            rw [List.getElem?_take] at hc
            split at hc
            · rw [List.getElem?_drop] at hc; exact hp _ c hc
            · cases hc)
        rw [hlen] at h1
        exact ⟨_, buf', h1, h2⟩
    obtain ⟨line, buf', h1, h2⟩ := hrow
    rw [dumpLoop_row (by omega) (e ▸ h1), e, Int.toNat_natCast]
    have e1 : toSz ((size : Int) - k) = size - k := by unfold toSz; omega
    rw [e1]
    exact ih _ _ _ _ h2 (by omega) (by omega) (by omega) (by omega)

/-- Beyond the range of C45: whenever `(int)Size()` is negative the line buffer is overrun. -/
theorem C45_overrun {b : Blob} {bs : Bytes} (hr : Reachable b) (hh : Holds b bs)
    (hl : 2147483648 ≤ bs.length % 4294967296) : DumpUndefined b := by
  obtain ⟨p, h1, h2⟩ := dump_eq hr hh
  refine ⟨1, .oob, fun n hn out => ?_⟩
  obtain ⟨n, rfl⟩ : ∃ j, n = j + 1 := ⟨n - 1, by omega⟩
  have hbig : 2147483648 ≤ bs.length := le_trans hl (Nat.mod_le _ _)
  have hneg : rowLen bs.length < 0 := by
    unfold rowLen
    have : wrap32 (bs.length : Int) < 0 := by unfold wrap32; omega
    rw [if_neg (by omega)]
    exact this
  obtain ⟨t, h3, _⟩ := frame_eq (buf := List.replicate 100 none) (by simp) 0
  have hrow : dumpRow p 0 (rowLen bs.length) (List.replicate 100 none) = .ub .oob := by
    rw [dumpRow_eq, h3, outBind_ok, rowLoop_negative p 98 0 _ 2 39 0 _ hneg (by norm_num)
      (fun i hi => by rw [Nat.zero_add]; exact byteAt_some h2 (by omega)) 101 (by norm_num)]
    rfl
  rw [h1, dumpLoop, if_neg (by omega), M.bind_ub (show M.lift _ out = (.ub .oob, out) by rw [hrow]; rfl)]

/-- Beyond the range of C45: otherwise the dump goes on for ever. -/
theorem C45_endless {b : Blob} {bs : Bytes} (hr : Reachable b) (hh : Holds b bs) (hbig : 4294967296 ≤ bs.length)
    (hl : bs.length % 4294967296 < 2147483648) : DumpDiverges b := by
  obtain ⟨p, h1, h2⟩ := dump_eq hr hh
  intro n out
  rw [h1]
  have hW : bs.length < W64 := by
    rw [holds_iff hr.valid] at hh
    rw [← hh, hr.valid.abs_length]; exact toSz_lt _
  exact dumpLoop_diverges h2 n 0 bs.length _ out (by simp) (by omega) hW hbig hl

/-- C45 exactly: `Dump()` works on the blobs below 2^31 bytes, and on no other. -/
theorem C45_exact {b : Blob} {bs : Bytes} (hr : Reachable b) (hh : Holds b bs) :
    (∃ text, Dumps b text) ↔ bs.length < 2 ^ 31 := by
  constructor
  · rintro ⟨text, N, h⟩
    by_contra hl
    by_cases hm : 2147483648 ≤ bs.length % 4294967296
    · obtain ⟨N', r, h'⟩ := C45_overrun hr hh hm
      have := h' (max N N') (by omega) []
      rw [h _ (by omega)] at this
      cases this
    · have := C45_endless hr hh (by omega) (by omega) N []
      rw [h _ (le_refl _)] at this
      cases this
  · exact fun hl => ⟨_, C45_dump hr hh hl⟩

example : ∃ (b : Blob) (bs : Bytes), Reachable b ∧ Holds b bs ∧ bs.length = 2 ^ 31 := by
  have h := Reachable.new (buf := List.replicate (2 ^ 31) 7) (off := 0) (n := 2 ^ 31) (by rw [List.length_replicate]; norm_num)
    (by rw [List.length_replicate]; norm_num)
  refine ⟨_, _, h, (holds_iff h.valid _).2 rfl, ?_⟩
  rw [h.valid.abs_length]
  decide

end BS
