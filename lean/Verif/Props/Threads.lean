import Verif.Lemmas.Threads
import Verif.Props.Copy
import Verif.Props.Asking

/-!
# Threads that share no pool picker do not disturb each other (C98)
-/

namespace BS

theorem client_cover {G : Graph} {n : Nat} (c : Client) : (c.prog G n).Within (c.Reaches G) fun _ => True :=
  client_in G n c fun i hi _ hk => ⟨i, hi, hk⟩

/-- **C98.** However many threads there are, whatever they call and in whatever order their steps happen: if no pool picker
can be reached from stamps of two threads, then what comes back to a thread is what would come back if it were alone. -/
theorem C98_threads {G : Graph} {n : Nat} {fl : Flags} {c : Nat → Client}
    (h : ∀ t u, t ≠ u → NoSharedPicker G (c t) (c u)) (sched : List Nat) (t : Nat) (as : List Answer)
    (he : (((Threads.start G n fl c).run sched).todo t).result? = some as) : as = ((c t).alone G n fl).1 := by
  obtain ⟨h1, _⟩ := run_solo (A := fun t => (c t).Reaches G) (Q := fun _ => True)
    (fun t u htu k ⟨i, hi, hk⟩ ⟨j, hj, hk'⟩ => h t u htu i j k hi hj hk hk') t sched (Threads.start G n fl c) fl
    (fun u => client_cover (c u)) fun _ _ => rfl
  have e := Prog.run_solo (sched.count t) ((c t).prog G n) fl
  rw [h1] at he
  change ((Prog.solo (sched.count t) ((c t).prog G n) fl).1).result? = some as at he
  cases hp : (Prog.solo (sched.count t) ((c t).prog G n) fl).1 with
  | ret a =>
    rw [hp] at he e
    cases he
    rw [client_run] at e
    exact congrArg Prod.fst e
  | read i m k => rw [hp] at he; cases he
  | write i m v k => rw [hp] at he; cases he

/-- **C98**, in the end: a thread that is given enough turns comes to its end, however the others are given theirs, and the
members of its pool pickers are then what they would be. -/
theorem C98_ends {G : Graph} {n : Nat} {fl : Flags} {c : Nat → Client}
    (h : ∀ t u, t ≠ u → NoSharedPicker G (c t) (c u)) (t : Nat) :
    ∃ K, ∀ sched : List Nat, K ≤ sched.count t →
      (((Threads.start G n fl c).run sched).todo t).result? = some ((c t).alone G n fl).1 ∧
      ∀ i k, (c t).Calls i → PickerBelow G i k →
        ((Threads.start G n fl c).run sched).flags k = ((c t).alone G n fl).2 k := by
  obtain ⟨K, hK⟩ := Prog.solo_ends ((c t).prog G n) fl
  refine ⟨K, fun sched hs => ?_⟩
  obtain ⟨h1, h2⟩ := run_solo (A := fun t => (c t).Reaches G) (Q := fun _ => True)
    (fun t u htu k ⟨i, hi, hk⟩ ⟨j, hj, hk'⟩ => h t u htu i j k hi hj hk hk') t sched (Threads.start G n fl c) fl
    (fun u => client_cover (c u)) fun _ _ => rfl
  have e : (Threads.start G n fl c).todo t = (c t).prog G n := rfl
  rw [e, hK _ hs, client_run] at h1 h2
  refine ⟨by rw [h1]; rfl, fun i k hi hk => h2 k ⟨i, hi, hk⟩⟩

/-- **C98**, without step budgets: if `ExtractStr` alone ends with outcome `o` and leaves `left`, then it does so beside any
other threads that share no pool picker with it, in every schedule that gives it enough turns. -/
theorem C98_extract {G : Graph} {fl fl' : Flags} {c : Nat → Client} (h : ∀ t u, t ≠ u → NoSharedPicker G (c t) (c u))
    {t : Nat} {i : Id} {b left : Blob} {o : Out Bytes} (ht : c t = .call (.extract i b) fun _ => .done)
    (he : ExtractsAsking G fl i b o fl' left) :
    ∃ N, ∀ n ≥ N, ∃ K, ∀ sched : List Nat, K ≤ sched.count t →
      (((Threads.start G n fl c).run sched).todo t).result? = some [.text o left] := by
  obtain ⟨N, hN⟩ := he
  refine ⟨N, fun n hn => ?_⟩
  obtain ⟨K, hK⟩ := C98_ends (n := n) (fl := fl) h t
  refine ⟨K, fun sched hs => ?_⟩
  obtain ⟨k, e⟩ := hN n hn
  rw [(hK sched hs).1, ht]
  show some [Answer.text (extractA G n i (0, (fl, b))).1 (extractA G n i (0, (fl, b))).2.2.2] = _
  rw [e]

/-- **C98** for texts. -/
theorem C98_returns {G : Graph} {fl : Flags} {c : Nat → Client} (h : ∀ t u, t ≠ u → NoSharedPicker G (c t) (c u))
    {t : Nat} {i : Id} {b : Blob} {s bs : Bytes} (ht : c t = .call (.extract i b) fun _ => .done)
    (he : Returns G fl i b s bs) :
    ∃ left, Holds left bs ∧ ∃ N, ∀ n ≥ N, ∃ K, ∀ sched : List Nat, K ≤ sched.count t →
      (((Threads.start G n fl c).run sched).todo t).result? = some [.text (.ok s) left] := by
  obtain ⟨left, he, hl⟩ := he
  exact ⟨left, hl, C98_extract h ht (C89_asking_partial he (by simp) fun _ h => nomatch h)⟩

/-! ## A case -/

/-- Two `StampJSON`s, objects 0-7 and 8-15, and a lottery over numbers, object 16. -/
def twoJson : Graph
  | 8 => some (.picker [9, 10, 11, 12, 13])
  | 9 => some (.arith .i64)
  | 10 => some (.arith .double)
  | 11 => some .jsonStr
  | 12 => some (.enumerator 8 [44, 32] [91] [93])
  | 13 => some (.enumerator 14 [44, 32] [123] [125])
  | 14 => some (.hashEl 15 8)
  | 15 => some .jsonStr
  | 16 => some (.lottery false [17, 18] 1 1 2)
  | 17 => some (.arith .u8)
  | 18 => some (.arith .u16)
  | i => jsonGraph i

theorem kids_apart {i : Nat} {l l' : List Nat} (h : ∀ j ∈ l, (i < 8 ↔ j < 8) ∧ (i < 16 ↔ j < 16))
    (h' : ∀ j ∈ l', (i < 8 ↔ j < 8) ∧ (i < 16 ↔ j < 16)) {j : Nat} (hj : j ∈ l ∨ j ∈ l') :
    (i < 8 ↔ j < 8) ∧ (i < 16 ↔ j < 16) := hj.elim (h j) (h' j)

theorem twoJson_edge {i j : Nat} (h : Edge twoJson i j) : (i < 8 ↔ j < 8) ∧ (i < 16 ↔ j < 16) := by
  obtain ⟨nd, h, hj⟩ := h
  rcases i with _ | _ | _ | _ | _ | _ | _ | _ | _ | _ | _ | _ | _ | _ | _ | _ | _ | _ | _ | i
  case succ.succ.succ.succ.succ.succ.succ.succ.succ.succ.succ.succ.succ.succ.succ.succ.succ.succ.succ => exact nomatch h
  all_goals
    obtain rfl := Option.some.inj h
    exact kids_apart (by decide) (by decide) hj

theorem twoJson_below {i j : Nat} (h : Relation.ReflTransGen (Edge twoJson) i j) : (i < 8 ↔ j < 8) ∧ (i < 16 ↔ j < 16) := by
  induction h with
  | refl => exact ⟨Iff.rfl, Iff.rfl⟩
  | tail _ h ih => exact ⟨ih.1.trans (twoJson_edge h).1, ih.2.trans (twoJson_edge h).2⟩

/-- Three threads: two extract with a `StampJSON` each, and one draws from the lottery for ever new blobs. -/
def threeThreads (b b' : Blob) (work : Client) : Nat → Client
  | 0 => .call (.extract 0 b) fun _ => .call (.size .min 0) fun _ => .done
  | 1 => .call (.extract 8 b') fun _ => .done
  | 2 => work
  | _ => .done

theorem threeThreads_calls {b b' : Blob} {work : Client} (hw : ∀ i, work.Calls i → i = 16) {t i : Nat}
    (h : (threeThreads b b' work t).Calls i) : (t = 0 ∧ i = 0) ∨ (t = 1 ∧ i = 8) ∨ (t = 2 ∧ i = 16) := by
  rcases t with _ | _ | _ | t
  · left
    refine ⟨rfl, ?_⟩
    cases h with
    | now => rfl
    | later h =>
      cases h with
      | now => rfl
      | later h => cases h
  · right; left
    refine ⟨rfl, ?_⟩
    cases h with
    | now => rfl
    | later h => cases h
  · exact .inr (.inr ⟨rfl, hw i h⟩)
  · cases h

theorem threeThreads_apart {b b' : Blob} {work : Client} (hw : ∀ i, work.Calls i → i = 16) (t u : Nat) (h : t ≠ u) :
    NoSharedPicker twoJson (threeThreads b b' work t) (threeThreads b b' work u) := by
  intro (i : Nat) (j : Nat) (k : Nat) hi hj hk hk'
  have h1 := twoJson_below hk.1
  have h2 := twoJson_below hk'.1
  have h3 := threeThreads_calls hw hi
  have h4 := threeThreads_calls hw hj
  omega

/-- The text of the second thread is `[0]`, whatever the others do and whenever. -/
example (b b' : Blob) (hr : Reachable b') (hb : Holds b' (List.replicate 16 0)) (work : Client)
    (hw : ∀ i, work.Calls i → i = 16) :
    ∃ left, Holds left [] ∧ ∃ N, ∀ n ≥ N, ∃ K, ∀ sched : List Nat, K ≤ sched.count 1 →
      (((Threads.start twoJson n Flags.init (threeThreads b b' work)).run sched).todo 1).result? =
        some [.text (.ok (str "[0]")) left] := by
  exact C98_returns (threeThreads_apart hw) rfl ((returns_iff hr hb).2 (arun_of 60 (by decide +kernel)))

/-! ## The order of the accesses, as the code has it -/

/-- A picker over itself, and a picker over a number. -/
def selfPicker : Graph
  | 0 => some (.picker [0])
  | 1 => some (.picker [2])
  | 2 => some (.arith .u8)
  | _ => none

/-- stamp_json.cpp 40, 42, 40 (of the picker in its own pool), 47, 48. -/
example : ((Job.isRec 0).prog selfPicker 60).accesses Flags.init =
    [(0, .isRec, none), (0, .inRec, none), (0, .inRec, some true), (0, .isRec, none), (0, .inRec, none),
     (0, .isRec, some true), (0, .inRec, some false)] := by decide +kernel

/-- stamp_json.cpp 40, 42, 52. -/
example : ((Job.isRec 1).prog selfPicker 60).accesses Flags.init =
    [(1, .isRec, none), (1, .inRec, none), (1, .inRec, some true), (1, .inRec, some false)] := by decide +kernel

/-- stamp_json.cpp 110, 112, 119. -/
example : ((Job.size .min 1).prog selfPicker 60).accesses Flags.init =
    [(1, .inRec, none), (1, .inRec, some true), (1, .inRec, some false)] := by decide +kernel

/-- stamp_json.cpp 130, 132, 130 (of the picker in its own pool), 138. -/
example : ((Job.size .max 0).prog selfPicker 60).accesses Flags.init =
    [(0, .isRec, none), (0, .inRec, none), (0, .inRec, some true), (0, .isRec, none), (0, .inRec, none),
     (0, .inRec, some false)] := by decide +kernel

/-- stamp_json.cpp 65-78 asks each stamp of the pool for its sizes, here the inner picker for the minimum once and for the
maximum twice. -/
example : ((Job.extract 0 (Blob.mk' (.at (List.replicate 30 7) 0) 30)).prog (fun
      | 0 => some (.picker [1])
      | i => selfPicker i) 60).accesses Flags.init =
    [(1, .inRec, none), (1, .inRec, some true), (1, .inRec, some false),
     (1, .isRec, none), (1, .inRec, none), (1, .inRec, some true), (1, .inRec, some false),
     (1, .isRec, none), (1, .inRec, none), (1, .inRec, some true), (1, .inRec, some false)] := by decide +kernel

/-! ## What is not so

A pool picker is where threads disturb each other: it keeps track of its own recursion in its members. -/

/-- Two threads with one call each. -/
def twoThreads (j j' : Job) : Nat → Client
  | 0 => .call j fun _ => .done
  | 1 => .call j' fun _ => .done
  | _ => .done

/-- **C98 fails for a shared picker: sizes.** Two threads ask one `StampJSON` for its minimal size. If the second asks while
the first is at it, it is told 1073741823 bytes instead of 10. -/
theorem C98_violated_size : HasMin jsonGraph Flags.init 0 10 ∧
    (((Threads.start jsonGraph 60 Flags.init (twoThreads (.size .min 0) (.size .min 0))).run [0, 0, 1]).todo 1).result? =
      some [.size (.ok 1073741823)] :=
  ⟨hasSize_eval 60 (by decide +kernel), by decide +kernel⟩

/-- A blob of thirty bytes 7. -/
def sevens : Blob := Blob.mk' (.at (List.replicate 30 7) 0) 30

/-- **C98 fails for a shared picker: texts.** One thread asks a `StampJSON` for its minimal size, another extracts with it from
thirty bytes 7. Alone the second thread gets an array; if it extracts while the first is at it, a number. -/
theorem C98_violated_text :
    ((twoThreads (.size .min 0) (.extract 0 sevens) 1).alone jsonGraph 60 Flags.init).1 =
      [.text (.ok (str "[[[506381209866536711]]]")) ⟨.at (List.replicate 30 7) 0, 30, 29⟩] ∧
    (((Threads.start jsonGraph 60 Flags.init (twoThreads (.size .min 0) (.extract 0 sevens))).run
      ([0, 0] ++ List.replicate 50 1)).todo 1).result? =
        some [.text (.ok (str "506381209866536711")) ⟨.at (List.replicate 30 7) 0, 10, 29⟩] :=
  ⟨by decide +kernel, by decide +kernel⟩

/-- A picker over a picker over numbers. -/
def overPicker : Graph
  | 0 => some (.picker [1])
  | 1 => some (.picker [2])
  | 2 => some (.arith .u8)
  | _ => none

/-- One thread asks the inner picker for its minimal size, the other asks the outer one whether it is recursive, and is given
its turns in between. -/
def lastingRun : Threads (List Answer) :=
  (Threads.start overPicker 60 Flags.init (twoThreads (.size .min 1) (.isRec 0))).run
    ([0, 0] ++ List.replicate 30 1 ++ List.replicate 30 0)

/-- **C98 fails for a shared picker: for ever.** The second thread is told that the outer picker is recursive, which it is not.
The picker keeps that in mind: when both threads are done, its maximal size is without bound, where it was 5. -/
theorem C98_violated_lasting :
    HasMax overPicker Flags.init 0 5 ∧
    ((twoThreads (.size .min 1) (.isRec 0) 1).alone overPicker 60 Flags.init).1 = [.isRec (.ok false)] ∧
    (lastingRun.todo 0).result? = some [.size (.ok 3)] ∧
    (lastingRun.todo 1).result? = some [.isRec (.ok true)] ∧
    HasMax overPicker lastingRun.flags 0 (-1) :=
  ⟨hasSize_eval 60 (by decide +kernel), by decide +kernel, by decide +kernel, by decide +kernel,
    hasSize_eval 60 (by decide +kernel)⟩

/-- **C98 fails for every shared picker.** Whatever the picker and whatever is in its pool: of two threads that ask it for its
minimal size, the second can be told 1073741823. -/
theorem C98_violated_every {G : Graph} {k : Id} {pool : List Id} (hG : G k = some (.picker pool)) {fl : Flags}
    (hi : (fl k).inRec = false) {n : Nat} (hn : n ≠ 0) :
    (((Threads.start G n fl (twoThreads (.size .min k) (.size .min k))).run [0, 0, 1]).todo 1).result? =
      some [.size (.ok 1073741823)] := by
  obtain ⟨n, rfl⟩ : ∃ j, n = j + 1 := ⟨n - 1, by omega⟩
  have u : (sizeP G (n + 1) .min k : P (Nat × ABlob) Int) = (P.tick >>= fun _ => P.read k .inRec >>= fun v =>
      if v = true then pure (2147483647 / 2) else (P.write k .inRec true >>= fun _ =>
        pickMinP (sizeP G n) pool (2147483647 / 2) >>= fun res => P.write k .inRec false >>= fun _ =>
          if res = 2147483647 / 2 then pure (2147483647 / 2) else pure (wrap32 (res + 2)))) := by
    simp only [sizeP, hG]
  have e : ∃ (f : Bool → Prog (List Answer)) (next : Prog (List Answer)),
      (Client.call (.size .min k) fun _ => .done).prog G (n + 1) = .read k .inRec f ∧
      f false = .write k .inRec true next ∧ f true = .ret [.size (.ok 1073741823)] := by
    show ∃ f next, ((sizeP G (n + 1) .min k (0, ([] : ABlob))).bind fun r => Prog.ret (Answer.size r.1)).bind _ = _ ∧ _
    rw [u]
    exact ⟨_, _, rfl, rfl, rfl⟩
  obtain ⟨f, next, e, ef, et⟩ := e
  have s0 : (Threads.start G (n + 1) fl (twoThreads (.size .min k) (.size .min k))).todo 0 = .read k .inRec f := e
  have s1 : (Threads.start G (n + 1) fl (twoThreads (.size .min k) (.size .min k))).todo 1 = .read k .inRec f := e
  have sf : (Threads.start G (n + 1) fl (twoThreads (.size .min k) (.size .min k))).flags = fl := rfl
  generalize Threads.start G (n + 1) fl (twoThreads (.size .min k) (.size .min k)) = T at *
  have hp : (fl.put k .inRec true k).inRec = true := by simp [Flags.put, Flag.put]
  simp [Threads.run, Threads.step, Prog.step, s0, s1, sf, ef, et, Flag.get, hi, Prog.result?, hp]

/-- A picker over a picker over numbers: alone 5 bytes will do, the second of two threads hears 1073741823. -/
example : HasMin overPicker Flags.init 0 5 ∧
    (((Threads.start overPicker 7 Flags.init (twoThreads (.size .min 0) (.size .min 0))).run [0, 0, 1]).todo 1).result? =
      some [.size (.ok 1073741823)] :=
  ⟨hasSize_eval 60 (by decide +kernel), C98_violated_every rfl rfl (by decide)⟩

/-- Three times the same `StampJSON`, as a structure: object 8. -/
def tripleJson : Graph
  | 8 => some (.seq [0, 0, 0] List.flatten true)
  | i => jsonGraph i

/-- **C98 fails for a shared picker: undefined behaviour.** A structure of three JSON values needs 30 bytes at least. If one
thread asks for that while another asks the `StampJSON` for its minimal size, three times 1073741823 is added up in an `int`. -/
theorem C98_violated_overflow : HasMin tripleJson Flags.init 8 30 ∧
    (((Threads.start tripleJson 60 Flags.init (twoThreads (.size .min 0) (.size .min 8))).run
      ([0, 0] ++ List.replicate 30 1)).todo 1).result? = some [.size (.ub .intOverflow)] :=
  ⟨hasSize_eval 60 (by decide +kernel), by decide +kernel⟩

/-- **C98 fails for a shared picker: abort.** Of thirty bytes the outer picker makes "7". If another thread asks the inner
picker for its minimal size at the wrong moment and is done soon after, the outer picker finds nothing that fits although there
are data enough, which it takes for a bug, and ends the whole program. -/
theorem C98_violated_abort :
    ((twoThreads (.size .min 1) (.extract 0 sevens) 1).alone overPicker 60 Flags.init).1 =
      [.text (.ok (str "7")) ⟨.at (List.replicate 30 7) 0, 5, 29⟩] ∧
    (((Threads.start overPicker 60 Flags.init (twoThreads (.size .min 1) (.extract 0 sevens))).run
      ([0, 0, 1, 0] ++ List.replicate 30 1)).todo 1).result? =
        some [.text .abort ⟨.at (List.replicate 30 7) 0, 2, 29⟩] :=
  ⟨by decide +kernel, by decide +kernel⟩
end BS
