import Verif.Model.Parsing
import Verif.Model.Statistics
import Verif.Model.SlfWrite
/-!
# Model of opening text files, and of reading training data from them

theanolm/backend/filetypes.py, theanolm/parsing/shufflingbatchiterator.py:39-58, 230-236, theanolm/parsing/functions.py:21-22.
-/
namespace TheanoLM

/-- The functions of Python that convert bytes: `bytes.decode('utf-8')` and the decompression of the module `gzip`; `none` means an
exception. -/
structure TextCodec where
  decode : List UInt8 → Option Str
  gunzip : List UInt8 → Option (List UInt8)

/-- A file object that `TextFileType('r')` has returned: the bytes of the file that its descriptor refers to, and whether they are
decompressed when the file object is read. -/
structure OpenText where
  data : List UInt8
  compressed : Bool
  deriving DecidableEq

/-- `string.endswith('.gz')` -/
def endsWithGz (path : Str) : Bool := ".gz".toList.isSuffixOf path

/-- filetypes.py:29-52 `TextFileType.__call__`, with mode `'r'`.  `disk` gives the contents of the files that can be opened.  The
exception `ArgumentTypeError` is `.inputError`. -/
def openText (stdin : List UInt8) (disk : Str → Option (List UInt8)) (path : Str) : Except Err OpenText :=
  if path = "-".toList then .ok ⟨stdin, false⟩                                      -- 33-35
  else
    match disk path with
    | none => .error .inputError                                                    -- 47-49
    | some data =>
      if endsWithGz path then .ok ⟨data, true⟩                                      -- 44-45
      else .ok ⟨data, false⟩                                                        -- 46

/-- The lines that a loop `for line in file` gives.  The text is decompressed and decoded before it is divided to lines; the conversion
of other line ends than "\n" is not modelled. -/
def textLines (io : TextCodec) (f : OpenText) : Except Err (List Str) :=
  match (if f.compressed then io.gunzip f.data else some f.data) with
  | none => .error .ioError
  | some bytes =>
    match io.decode bytes with
    | none => .error .valueError
    | some text => .ok (fileLines text)

/-- vocabulary/statistics.py:11-33 `compute_word_counts`, on file objects. -/
def fileWordCounts (io : TextCodec) (files : List OpenText) : Except Err (List (Str × Nat)) :=
  match mapE (textLines io) files with
  | .error e => .error e
  | .ok lines => .ok (computeWordCounts lines)

/-- The newline, as a byte. -/
def isNlByte (b : UInt8) : Bool := b == 10

/-- shufflingbatchiterator.py:45-47: what `mmap` gives for the descriptor of the file.  (For a file that has been opened with `gzip`,
`fileno` returns the descriptor of the compressed file.)  An empty file cannot be mapped. -/
def mappedData (f : OpenText) : Except Err (List UInt8) := if f.data.isEmpty then .error .valueError else .ok f.data

/-- shufflingbatchiterator.py:233-234 and functions.py:21-22: a line is read from the mapped data and decoded. -/
def decodedLine (io : TextCodec) (data : List UInt8) (position : Nat) : Except Err Str :=
  match io.decode (readlineAt isNlByte data position) with
  | none => .error .valueError
  | some line => .ok line

/-- The lines of a file that are used in training, in the order of the pointers (shufflingbatchiterator.py:53-54); they are shuffled
later. -/
def trainingLines (io : TextCodec) (f : OpenText) : Except Err (List Str) :=
  match mappedData f with
  | .error e => .error e
  | .ok data => mapE (decodedLine io data) (findSentenceStarts isNlByte data)

end TheanoLM
