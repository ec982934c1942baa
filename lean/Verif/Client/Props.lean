import Verif.Client.Model

/-!
# C119: a remote signer and the answers to requests
-/

namespace Verif.Client

variable {Req Resp : Type}

/-! ## Specification -/

/-- An answer as the result of a request. -/
def result (de : String → String → Option Resp) (command answer : String) : Except Error Resp :=
  match de command answer with
  | some d => .ok d
  | none => .error .serialization

/-- No frames but answers, and every result is waited for. -/
def Ev.Clean (e : Ev Req) : Prop := e.pre = [] ∧ e.post = [] ∧ e.waits = true

/-- The number of requests that were waited for. -/
def calls (es : List (Ev Req)) : Nat := (es.filter (·.waits)).length

/-- The number of frames besides answers, and of requests not waited for. -/
def excess : List (Ev Req) → Nat
  | [] => 0
  | e :: es => e.pre.length + e.post.length + (if e.waits then 0 else 1) + excess es

/-- The messages of requests. -/
def msgs (enc : String → Req → String) (es : List (Ev Req)) : List String := es.map fun e => enc e.command e.request

/-! ## The stream of everything that comes in -/

def outcome (de : String → String → Option Resp) (command : String) : Item → Except Error Resp
  | .text s => result de command s
  | .other => .error .format
  | .err => .error .websocket

def stream (enc : String → Req → String) (serve : List String → String) : List String → List (Ev Req) → List Item
  | _, [] => []
  | sent, e :: es =>
    arrivals serve sent (enc e.command e.request) e ++ stream enc serve (sent ++ [enc e.command e.request]) es

theorem read_cons (de : String → String → Option Resp) (c : String) (i : Item) (l : List Item) :
    read de c (i :: l) = (l, outcome de c i) := by
  cases i <;> rfl

theorem run_spec (enc : String → Req → String) (de : String → String → Option Resp) (serve : List String → String)
    (es : List (Ev Req)) (w : Ws) :
    (run enc de serve w es).2 =
        List.zipWith (fun e i => outcome de e.command i) (es.filter (·.waits)) (w.inbox ++ stream enc serve w.sent es) ∧
      (run enc de serve w es).1 =
        ⟨w.sent ++ msgs enc es, (w.inbox ++ stream enc serve w.sent es).drop (calls es)⟩ := by
  induction es generalizing w with
  | nil => simp [run, stream, msgs, calls]
  | cons e es ih =>
    have hc : ∃ i l, w.inbox ++ arrivals serve w.sent (enc e.command e.request) e = i :: l := by
      cases h : w.inbox ++ arrivals serve w.sent (enc e.command e.request) e with
      | nil => simp [arrivals] at h
      | cons i l => exact ⟨i, l, rfl⟩
    obtain ⟨i, l, hc⟩ := hc
    by_cases hw : e.waits = true
    · have hs : w.send (fun c q => some (enc c q)) de e.command e.request true
          (arrivals serve w.sent (enc e.command e.request) e) =
          (⟨w.sent ++ [enc e.command e.request], l⟩, outcome de e.command i) := by
        simp only [Ws.send, if_true, hc, read_cons]
      have := ih ⟨w.sent ++ [enc e.command e.request], l⟩
      simp only [run, hw, if_true, hs, this, stream, ← List.append_assoc, hc]
      simp [hw, calls, msgs]
    · have := ih ⟨w.sent ++ [enc e.command e.request],
        w.inbox ++ arrivals serve w.sent (enc e.command e.request) e⟩
      have hr : run enc de serve w (e :: es) = run enc de serve ⟨w.sent ++ [enc e.command e.request],
          w.inbox ++ arrivals serve w.sent (enc e.command e.request) e⟩ es := by
        rw [run, if_neg hw]
        rfl
      rw [hr, this.1, this.2, stream]
      simp [hw, calls, msgs]

theorem stream_append (enc : String → Req → String) (serve : List String → String) (sent : List String)
    (es fs : List (Ev Req)) :
    stream enc serve sent (es ++ fs) = stream enc serve sent es ++ stream enc serve (sent ++ msgs enc es) fs := by
  induction es generalizing sent with
  | nil => simp [stream, msgs]
  | cons e es ih => simp [stream, ih, msgs]

theorem calls_cons (e : Ev Req) (es : List (Ev Req)) : calls (e :: es) = (if e.waits then 1 else 0) + calls es := by
  by_cases h : e.waits <;> simp [calls, h, Nat.add_comm]

theorem length_stream (enc : String → Req → String) (serve : List String → String) (sent : List String)
    (es : List (Ev Req)) : (stream enc serve sent es).length = calls es + excess es := by
  induction es generalizing sent with
  | nil => rfl
  | cons e es ih =>
    rw [stream, List.length_append, ih, calls_cons, excess]
    simp only [arrivals, List.length_append, List.length_cons, List.length_map]
    split <;> omega

theorem stream_clean (enc : String → Req → String) (serve : List String → String) (es : List (Ev Req))
    (hes : ∀ e ∈ es, e.Clean) (sent : List String) (j : Nat) (hj : j < es.length) :
    (stream enc serve sent es)[j]? = some (.text (serve (sent ++ msgs enc (es.take (j + 1))))) := by
  induction es generalizing sent j with
  | nil => simp at hj
  | cons e es ih =>
    obtain ⟨h1, h2, -⟩ := hes e (List.mem_cons_self ..)
    simp only [stream, arrivals, h1, h2, List.map_nil, List.nil_append, List.cons_append]
    cases j with
    | zero => simp [msgs]
    | succ j =>
      rw [List.getElem?_cons_succ, ih (fun e he => hes e (List.mem_cons_of_mem _ he)) _ j (by simpa using hj)]
      simp [msgs]

theorem filter_clean {es : List (Ev Req)} (h : ∀ e ∈ es, e.Clean) : es.filter (·.waits) = es :=
  List.filter_eq_self.2 fun e he => (h e he).2.2

theorem excess_clean {es : List (Ev Req)} (h : ∀ e ∈ es, e.Clean) : excess es = 0 := by
  induction es with
  | nil => rfl
  | cons e es ih =>
    obtain ⟨h1, h2, h3⟩ := h e (List.mem_cons_self ..)
    rw [excess, ih fun e he => h e (List.mem_cons_of_mem _ he), h1, h2, h3]
    rfl

theorem excess_append (es fs : List (Ev Req)) : excess (es ++ fs) = excess es + excess fs := by
  induction es with
  | nil => simp [excess]
  | cons e es ih => rw [List.cons_append, excess, ih, excess]; omega

/-! ## C119 -/

/-- As long as only answers come in and every result is waited for, a request gets the answer to itself. Missing: other
frames, and requests that are dropped. -/
theorem c119_own_partial (enc : String → Req → String) (de : String → String → Option Resp)
    (serve : List String → String) (es : List (Ev Req)) (hes : ∀ e ∈ es, e.Clean) (j : Nat) (e : Ev Req)
    (he : es[j]? = some e) :
    (run enc de serve Ws.new es).2[j]? = some (result de e.command (serve (msgs enc (es.take (j + 1))))) := by
  obtain ⟨hj, _⟩ := List.getElem?_eq_some_iff.1 he
  rw [(run_spec enc de serve es Ws.new).1, filter_clean hes, List.getElem?_zipWith, he]
  simp only [Ws.new, List.nil_append]
  rw [stream_clean enc serve es hes [] j hj]
  rfl

/-- After any history, requests get answers to other ones: with `n` frames besides answers and dropped requests before,
the request number `n + j` from there on gets the answer to the request number `j`, as long as the connection is used. -/
theorem c119_shifted_violated (enc : String → Req → String) (de : String → String → Option Resp)
    (serve : List String → String) (hs es : List (Ev Req)) (hes : ∀ e ∈ es, e.Clean) (j : Nat) (e' : Ev Req)
    (he' : es[excess hs + j]? = some e') :
    (run enc de serve Ws.new (hs ++ es)).2[calls hs + (excess hs + j)]? =
      some (result de e'.command (serve (msgs enc (hs ++ es.take (j + 1))))) := by
  obtain ⟨hj, _⟩ := List.getElem?_eq_some_iff.1 he'
  rw [(run_spec enc de serve (hs ++ es) Ws.new).1, List.filter_append, filter_clean hes, List.getElem?_zipWith]
  simp only [Ws.new, List.nil_append]
  rw [stream_append, List.getElem?_append_right (by simp [calls]), List.getElem?_append_right (by
    rw [length_stream]; omega), length_stream]
  have h1 : calls hs + (excess hs + j) - (hs.filter (·.waits)).length = excess hs + j := by
    show calls hs + (excess hs + j) - calls hs = _
    omega
  have h2 : calls hs + (excess hs + j) - (calls hs + excess hs) = j := by omega
  rw [h1, h2, he', stream_clean enc serve es hes _ j (by omega)]
  simp [outcome, msgs]

/-- The number of items that are waiting unread: it is the number of frames besides answers and of dropped requests, so
no use of the connection brings it down again. -/
theorem c119_unread (enc : String → Req → String) (de : String → String → Option Resp) (serve : List String → String)
    (es fs : List (Ev Req)) :
    (run enc de serve Ws.new es).1.inbox.length = excess es ∧
      (run enc de serve Ws.new es).1.inbox.length ≤ (run enc de serve Ws.new (es ++ fs)).1.inbox.length := by
  have h : ∀ es : List (Ev Req), (run enc de serve Ws.new es).1.inbox.length = excess es := by
    intro es
    rw [(run_spec enc de serve es Ws.new).2]
    simp only [Ws.new, List.nil_append, List.length_drop]
    rw [length_stream]
    omega
  exact ⟨h es, by rw [h, h, excess_append]; omega⟩

/-- One ping before the answer to a first transaction: the first request fails, and signing any second transaction gives
what the signer made for the first one. -/
theorem c119_stale_violated (enc : String → Req → String) (de : String → String → Option Resp)
    (serve : List String → String) (hs : List (Ev Req)) (hh : ∀ e ∈ hs, e.Clean) (r₁ r₂ : Req) :
    (run enc de serve Ws.new (hs ++ [⟨"sign", r₁, true, [.other], []⟩, ⟨"sign", r₂, true, [], []⟩])).2.drop hs.length =
      [.error .format, result de "sign" (serve (msgs enc hs ++ [enc "sign" r₁]))] := by
  rw [(run_spec _ _ _ _ _).1]
  simp only [Ws.new, List.nil_append, List.filter_append, filter_clean hh, stream_append]
  have hl : hs.length = (stream enc serve [] hs).length := by
    rw [length_stream]
    simp [calls, filter_clean hh, excess_clean hh]
  rw [List.zipWith_append hl, List.drop_append_of_le_length (by simp [← hl]), List.drop_of_length_le (by simp [← hl])]
  rfl

/-! ## HTTP -/

/-- The network that the last call of `set_network` gave. -/
def lastNetwork {α : Type} (os : List (Op α)) : Option Network :=
  ((os.filterMap fun o => match o with | .network n => some n | .post _ _ => none).getLast?).join

/-- The requests among uses of a client. -/
def posts {α : Type} (os : List (Op α)) : Nat :=
  (os.filter fun o => match o with | .network _ => false | .post _ _ => true).length

/-- The network in force for a client after further uses. -/
def after {α : Type} (n : Option Network) (os : List (Op α)) : Option Network := lastNetwork (.network n :: os)

theorem after_network {α : Type} (n m : Option Network) (os : List (Op α)) :
    after n (.network m :: os) = after m os := by
  simp [after, lastNetwork]

theorem after_post {α : Type} (n : Option Network) (c : String) (r : α) (os : List (Op α)) :
    after n (.post c r :: os) = after n os := by
  simp [after, lastNetwork]

theorem http_run {α : Type} (os : List (Op α)) (c : Http) :
    (c.run os = none ↔ ∃ pre cmd r post, os = pre ++ .post cmd r :: post ∧ after c.network pre = none) ∧
    ∀ ms, c.run os = some ms → ms.length = posts os ∧
      ∀ pre cmd r post, os = pre ++ .post cmd r :: post →
        ∃ n, after c.network pre = some n ∧ ms[posts pre]? = some (cmd, ⟨n, r⟩) := by
  induction os generalizing c with
  | nil => simp [Http.run, posts]
  | cons o os ih =>
    cases o with
    | network n =>
      obtain ⟨i1, i2⟩ := ih (c.setNetwork n)
      simp only [Http.run]
      refine ⟨i1.trans ⟨?_, ?_⟩, fun ms hm => ⟨?_, ?_⟩⟩
      · rintro ⟨pre, cmd, r, post, e, h⟩
        exact ⟨.network n :: pre, cmd, r, post, by rw [e]; rfl, by rw [after_network]; exact h⟩
      · rintro ⟨pre, cmd, r, post, e, h⟩
        cases pre with
        | nil => simp at e
        | cons o pre =>
          simp only [List.cons_append, List.cons.injEq] at e
          obtain ⟨rfl, e⟩ := e
          exact ⟨pre, cmd, r, post, e, by rw [after_network] at h; exact h⟩
      · rw [(i2 ms hm).1]
        simp [posts]
      · intro pre cmd r post e
        cases pre with
        | nil => simp at e
        | cons o pre =>
          simp only [List.cons_append, List.cons.injEq] at e
          obtain ⟨rfl, e⟩ := e
          obtain ⟨m, h1, h2⟩ := (i2 ms hm).2 pre cmd r post e
          exact ⟨m, by rw [after_network]; exact h1, by simpa [posts] using h2⟩
    | post cmd r =>
      obtain ⟨i1, i2⟩ := ih c
      cases hn : c.network with
      | none =>
        have hr : c.run (.post cmd r :: os) = none := by simp [Http.run, Http.wrap, hn]
        refine ⟨⟨fun _ => ⟨[], cmd, r, os, rfl, by simp [after, lastNetwork]⟩, fun _ => hr⟩, fun ms h => ?_⟩
        rw [hr] at h
        simp at h
      | some n =>
        have hr : c.run (.post cmd r :: os) = (c.run os).map ((cmd, ⟨n, r⟩) :: ·) := by
          simp only [Http.run, Http.wrap, hn]
          cases c.run os <;> rfl
        rw [hr, ← hn]
        refine ⟨?_, ?_⟩
        · rw [Option.map_eq_none_iff, i1]
          constructor
          · rintro ⟨pre, cmd', r', post, e, h⟩
            exact ⟨.post cmd r :: pre, cmd', r', post, by rw [e]; rfl, by rw [after_post]; exact h⟩
          · rintro ⟨pre, cmd', r', post, e, h⟩
            cases pre with
            | nil => simp [after, lastNetwork, hn] at h
            | cons o pre =>
              simp only [List.cons_append, List.cons.injEq] at e
              obtain ⟨rfl, e⟩ := e
              exact ⟨pre, cmd', r', post, e, by rw [after_post] at h; exact h⟩
        · intro ms hm
          obtain ⟨ms', h', rfl⟩ := Option.map_eq_some_iff.1 hm
          refine ⟨by simp [(i2 ms' h').1, posts], ?_⟩
          intro pre cmd' r' post e
          cases pre with
          | nil =>
            simp only [List.nil_append, List.cons.injEq, Op.post.injEq] at e
            obtain ⟨⟨rfl, rfl⟩, -⟩ := e
            exact ⟨n, by simp [after, lastNetwork, hn], by simp [posts]⟩
          | cons o pre =>
            simp only [List.cons_append, List.cons.injEq] at e
            obtain ⟨rfl, e⟩ := e
            obtain ⟨m, h1, h2⟩ := (i2 ms' h').2 pre cmd' r' post e
            exact ⟨m, by rw [after_post]; exact h1, by simpa [posts] using h2⟩

theorem after_none {α : Type} (os : List (Op α)) : after none os = lastNetwork os := by
  simp only [after, lastNetwork, List.filterMap_cons, List.getLast?_cons]
  cases (List.filterMap (fun o : Op α => match o with | .network n => some n | .post _ _ => none) os).getLast? <;> rfl

/-- Over HTTP a request goes out with the network that was set last, and in the order of the requests; a client panics
exactly if a request is made while no network is set. -/
theorem c119_network {α : Type} (url : String) (os : List (Op α)) :
    ((Http.new url).run os = none ↔ ∃ pre cmd r post, os = pre ++ .post cmd r :: post ∧ lastNetwork pre = none) ∧
    ∀ ms, (Http.new url).run os = some ms → ms.length = posts os ∧
      ∀ pre cmd r post, os = pre ++ .post cmd r :: post →
        ∃ n, lastNetwork pre = some n ∧ ms[posts pre]? = some (cmd, ⟨n, r⟩) := by
  have := http_run os (Http.new url)
  simpa only [Http.new, after_none] using this

/-- Data of different networks are kept apart. -/
theorem c119_separate {α : Type} (s : Specific α) (n : Network) (x : α) :
    (s.set n x).get n = x ∧ ∀ m, m ≠ n → (s.set n x).get m = s.get m := by
  refine ⟨by cases n <;> rfl, fun m hm => ?_⟩
  cases n <;> cases m <;> first | rfl | exact absurd rfl hm

/-- Every network has a number of its own below three, and every such number is one of a network. -/
theorem c119_numbers : (∀ n m : Network, n.toNat = m.toNat → n = m) ∧ ∀ k, (∃ n : Network, n.toNat = k) ↔ k < 3 := by
  refine ⟨by intro n m; cases n <;> cases m <;> simp [Network.toNat], fun k => ⟨?_, fun h => ?_⟩⟩
  · rintro ⟨n, rfl⟩; cases n <;> simp [Network.toNat]
  · match k, h with
    | 0, _ => exact ⟨.dolphin, rfl⟩
    | 1, _ => exact ⟨.calamari, rfl⟩
    | 2, _ => exact ⟨.manta, rfl⟩

/-! ## Examples -/

/-- A server that answers with the number of messages it has seen and the last one. -/
def exServe (l : List String) : String := toString l.length ++ ":" ++ (l.getLast?.getD "")

def exEnc (c r : String) : String := c ++ " " ++ r

example : (run exEnc (fun _ s => some s) exServe Ws.new
    [⟨"sync", "a", true, [], []⟩, ⟨"sign", "b", true, [], []⟩, ⟨"sign", "c", true, [], []⟩]).2 =
    [.ok "1:sync a", .ok "2:sign b", .ok "3:sign c"] := by rfl

/-- One ping, and payments are mixed up from there on. -/
example : (run exEnc (fun _ s => some s) exServe Ws.new
    [⟨"sync", "a", true, [], []⟩, ⟨"sign", "b", true, [.other], []⟩, ⟨"sign", "c", true, [], []⟩,
      ⟨"sign", "d", true, [], []⟩]).2 =
    [.ok "1:sync a", .error .format, .ok "2:sign b", .ok "3:sign c"] := by rfl

/-- The same after a request whose future was dropped. -/
example : (run exEnc (fun _ s => some s) exServe Ws.new
    [⟨"sign", "a", false, [], []⟩, ⟨"sign", "b", true, [], []⟩]).2 = [.ok "1:sign a"] := by rfl

/-- The hypotheses of `c119_shifted_violated`, with an excess of one and a conclusion that is wrong for the caller. -/
example : (run exEnc (fun _ s => some s) exServe Ws.new
    ([⟨"sign", "a", true, [], [.other]⟩] ++ [⟨"sign", "b", true, [], []⟩, ⟨"sign", "c", true, [], []⟩])).2[2]? =
      some (.ok "2:sign b") :=
  c119_shifted_violated exEnc (fun _ s => some s) exServe [⟨"sign", "a", true, [], [.other]⟩]
    [⟨"sign", "b", true, [], []⟩, ⟨"sign", "c", true, [], []⟩] (by simp [Ev.Clean]) 0 _ rfl

example : (Http.new "u").run [.network (some .manta), .post "sync" 1, .network (some .dolphin), .post "sign" 2] =
    some [("sync", ⟨.manta, 1⟩), ("sign", ⟨.dolphin, 2⟩)] := by rfl

example : (Http.new "u").run [.network (some .manta), .network none, .post "sync" 1] = none := by rfl

end Verif.Client
