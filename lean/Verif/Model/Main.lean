import Verif.Model.Parser
import Verif.Model.Html
/-! # Model of src/main.rs: the command line program -/
namespace Jotdown.Main
open Jotdown

/-- A file or standard output as the operating system gives it: a state, and an operation that takes
bytes; it takes all of them, or takes the first `n` of them and then fails with an error. What
`write_all` does on `std::fs::File` and `std::io::Stdout` (src/main.rs:42-45). Simplification: the
line buffer that `std::io::stdout` has itself belongs to the device. -/
structure Device (σ ε : Type) where
  put : σ → Bytes → σ × Option (Nat × ε)

/-- State of a device and the bytes it has taken so far (`path` or `stdout()` in src/main.rs:42-45). -/
structure Dest (σ : Type) where
  dev : σ
  got : Bytes
  deriving DecidableEq, Repr

/-- `Write::write_all` (std; reached from src/main.rs:42-45): no call is made for no bytes. On an
error, also the bytes not taken. -/
def Device.writeAll {σ ε : Type} (d : Device σ ε) (s : Dest σ) (b : Bytes) :
    Except (Dest σ × Bytes × ε) (Dest σ) :=
  if b = [] then .ok s
  else match d.put s.dev b with
    | (dev, none) => .ok ⟨dev, s.got ++ b⟩
    | (dev, some (n, e)) => .error (⟨dev, s.got ++ b.take n⟩, b.drop n, e)

/-- src/main.rs:43: a file is written to without a buffer. -/
def Device.file {σ ε : Type} (d : Device σ ε) : Html.Sink (Dest σ) ε where
  write s b :=
    match d.writeAll s b with
    | .ok s => .ok s
    | .error (s, _, e) => .error (s, e)

/-- `std::io::BufWriter` (src/main.rs:44): the writer inside and the bytes kept back. -/
structure BufWriter (σ : Type) where
  inner : Dest σ
  buf : Bytes
  deriving DecidableEq, Repr

/-- Capacity of `BufWriter::new` (std; src/main.rs:44). -/
def capacity : Nat := 8192

/-- `BufWriter::flush_buf` (std; src/main.rs:44): write out the buffer; what the writer inside does
not take because of an error stays in it. -/
def BufWriter.flushBuf {σ ε : Type} (d : Device σ ε) (w : BufWriter σ) : BufWriter σ × Option ε :=
  match d.writeAll w.inner w.buf with
  | .ok s => (⟨s, []⟩, none)
  | .error (s, rest, e) => (⟨s, rest⟩, some e)

/-- End of `BufWriter::write_all_cold` (std; src/main.rs:44), after the buffer was flushed if need be:
large pieces are written through, others are kept. -/
def BufWriter.writeCold {σ ε : Type} (d : Device σ ε) (w : BufWriter σ) (b : Bytes) :
    Except (BufWriter σ × ε) (BufWriter σ) :=
  if capacity ≤ b.length then
    match d.writeAll w.inner b with
    | .ok s => .ok ⟨s, w.buf⟩
    | .error (s, _, e) => .error (⟨s, w.buf⟩, e)
  else .ok ⟨w.inner, w.buf ++ b⟩

/-- src/main.rs:44: `BufWriter::write_all` (std). -/
def Device.buffered {σ ε : Type} (d : Device σ ε) : Html.Sink (BufWriter σ) ε where
  write w b :=
    if b.length < capacity - w.buf.length then .ok ⟨w.inner, w.buf ++ b⟩
    else if capacity - w.buf.length < b.length then
      match w.flushBuf d with
      | (w, none) => w.writeCold d b
      | (w, some e) => .error (w, e)
    else w.writeCold d b

/-- src/main.rs:1-12: the options. Simplification: clap's parsing of the command line is not
modelled, and of the paths only whether `--output` is given. -/
structure App where
  output : Bool
  minified : Bool
  startIndent : Nat
  indentString : Bytes
  deriving DecidableEq, Repr

/-- What the operating system does: contents of the input (src/main.rs:20-27; `read_to_string` also
fails if they are not UTF-8), result of creating the output file (src/main.rs:43), standard output. -/
structure Env (σ ε : Type) where
  input : Except ε Bytes
  create : Except ε σ
  stdout : σ

/-- src/main.rs:30-37 -/
def App.renderer (a : App) : Html.Renderer :=
  if a.minified then .minified else .indented ⟨a.indentString, a.startIndent⟩

/-- What can be seen when the program has ended: exit status, contents of the output file if it was
created, bytes that were given to standard output (src/main.rs:14-56). The message on standard error
is not modelled. -/
structure Outcome where
  status : Nat
  file : Option Bytes
  stdout : Bytes
  deriving DecidableEq, Repr

/-- src/main.rs:50-54: exit status. -/
def status {ε : Type} : Option ε → Nat
  | none => 0
  | some _ => 1

/-- src/main.rs:14-56: `run` and `main`. The buffered writer is dropped at the end of
`write_events`: its buffer is flushed, an error of that is ignored (std). Simplification: the parser
is an iterator there, here all events are there before the first is rendered; the order of a panic of
the parser and of writes is not modelled. -/
def App.run {σ ε : Type} (d : Device σ ε) (env : Env σ ε) (a : App) : R Outcome :=
  match env.input with
  | .error _ => .ok ⟨1, none, []⟩
  | .ok src => do
    let es ← events src
    if a.output then
      match env.create with
      | .error _ => .ok ⟨1, none, []⟩
      | .ok f => do
        let (s, err) ← a.renderer.writeEvents d.file ⟨f, []⟩ es
        pure ⟨status err, some s.got, []⟩
    else do
      let (w, err) ← a.renderer.writeEvents d.buffered ⟨⟨env.stdout, []⟩, []⟩ es
      pure ⟨status err, none, (w.flushBuf d).1.inner.got⟩

end Jotdown.Main
