import Verif.Basic.Regex
/-!
Number, boolean and date-time productions of the TOML grammar (toml.abnf, version 1.1), written
directly from the grammar as regular expressions with textbook semantics (`Rx.Lang`).
-/
namespace Tombi.Spec.Toml
open Rx

/-- `DIGIT` -/
def digit : Rx := .cls [('0', '9')]
/-- `digit1-9` -/
def digit19 : Rx := .cls [('1', '9')]
/-- `digit0-7` -/
def digit07 : Rx := .cls [('0', '7')]
/-- `digit0-1` -/
def digit01 : Rx := .cls [('0', '1')]
/-- `HEXDIG` (case-insensitive in ABNF) -/
def hexdig : Rx := .cls [('0', '9'), ('A', 'F'), ('a', 'f')]
/-- `underscore` -/
def underscore : Rx := ch '_'
/-- `[ minus / plus ]` -/
def sign : Rx := opt (.cls [('+', '+'), ('-', '-')])
/-- `x / underscore x` -/
def sep (x : Rx) : Rx := .alt x (.cat underscore x)

/-- `unsigned-dec-int = DIGIT / digit1-9 1*( DIGIT / underscore DIGIT )` -/
def unsignedDecInt : Rx := .alt digit (.cat digit19 (plus (sep digit)))
/-- `dec-int = [ minus / plus ] unsigned-dec-int` -/
def decInt : Rx := .cat sign unsignedDecInt
/-- `hex-int = hex-prefix HEXDIG *( HEXDIG / underscore HEXDIG )` -/
def hexInt : Rx := seq [ch '0', ch 'x', hexdig, .star (sep hexdig)]
/-- `oct-int = oct-prefix digit0-7 *( digit0-7 / underscore digit0-7 )` -/
def octInt : Rx := seq [ch '0', ch 'o', digit07, .star (sep digit07)]
/-- `bin-int = bin-prefix digit0-1 *( digit0-1 / underscore digit0-1 )` -/
def binInt : Rx := seq [ch '0', ch 'b', digit01, .star (sep digit01)]

/-- `zero-prefixable-int = DIGIT *( DIGIT / underscore DIGIT )` -/
def zeroPrefixableInt : Rx := .cat digit (.star (sep digit))
/-- `frac = decimal-point zero-prefixable-int` -/
def frac : Rx := .cat (ch '.') zeroPrefixableInt
/-- `exp = "e" float-exp-part`, `float-exp-part = [ minus / plus ] zero-prefixable-int` -/
def exp : Rx := seq [.cls [('e', 'e'), ('E', 'E')], sign, zeroPrefixableInt]
/-- `special-float = [ minus / plus ] ( inf / nan )` -/
def specialFloat : Rx := .cat sign (.alt (lit ['i', 'n', 'f']) (lit ['n', 'a', 'n']))
/-- `float = float-int-part ( exp / frac [ exp ] ) / special-float` -/
def float : Rx := .alt (.cat decInt (.alt exp (.cat frac (opt exp)))) specialFloat

/-- `boolean = true / false` -/
def boolean : Rx := .alt (lit ['t', 'r', 'u', 'e']) (lit ['f', 'a', 'l', 's', 'e'])

/-- `full-date = date-fullyear "-" date-month "-" date-mday` -/
def fullDate : Rx := seq [rep digit 4, ch '-', rep digit 2, ch '-', rep digit 2]
/-- `partial-time = time-hour ":" time-minute [ ":" time-second [ time-secfrac ] ]` (TOML 1.1) -/
def partialTime : Rx :=
  seq [rep digit 2, ch ':', rep digit 2,
    opt (seq [ch ':', rep digit 2, opt (.cat (ch '.') (plus digit))])]
/-- `time-delim = "T" / %x20` (letters are case-insensitive) -/
def timeDelim : Rx := .cls [('T', 'T'), ('t', 't'), (' ', ' ')]
/-- `time-offset = "Z" / ( "+" / "-" ) time-hour ":" time-minute` -/
def timeOffset : Rx :=
  .alt (.cls [('Z', 'Z'), ('z', 'z')])
    (seq [.cls [('+', '+'), ('-', '-')], rep digit 2, ch ':', rep digit 2])
/-- `offset-date-time = full-date time-delim full-time` -/
def offsetDateTime : Rx := seq [fullDate, timeDelim, partialTime, timeOffset]
/-- `local-date-time = full-date time-delim partial-time` -/
def localDateTime : Rx := seq [fullDate, timeDelim, partialTime]

/-! Texts outside the grammar, used to name exactly what tombi accepts beyond it. -/

/-- a time whose fraction follows the minutes directly -/
def laxTime : Rx := seq [rep digit 2, ch ':', rep digit 2, ch '.', plus digit]
/-- a float without underscores, whose integer part may have leading zeros -/
def zeroPrefixedFloat : Rx :=
  .cat (plus digit) (.alt exp (.cat (.cat (ch '.') (plus digit)) (opt exp)))

end Tombi.Spec.Toml
